import Mathlib.RingTheory.Localization.FractionRing
import Verif.Hasse.Frob

/-!
# Hasse's theorem

The number `N` of points of an elliptic curve over a field with `q` elements satisfies
`(N - (q+1))² ≤ 4q` (Manin's proof).  It is proved here for `q` odd and for `q = 2`.
-/

namespace Eclib.Hasse

open WeierstrassCurve Polynomial

set_option linter.unusedSectionVars false

/-- the recurrence determines a quadratic function -/
theorem closed_form {g : ℤ → ℤ} (h : ∀ n, g (n + 1) + g (n - 1) = 2 * g n + 2) (n : ℤ) :
    g n = n ^ 2 + (g 0 + 1 - g (-1)) * n + g 0 := by
  have key : ∀ n : ℕ, (g n = (n : ℤ) ^ 2 + (g 0 + 1 - g (-1)) * n + g 0 ∧
      g (n + 1) = ((n : ℤ) + 1) ^ 2 + (g 0 + 1 - g (-1)) * (n + 1) + g 0) ∧
      (g (-n) = (-n : ℤ) ^ 2 + (g 0 + 1 - g (-1)) * (-n) + g 0 ∧
      g (-n - 1) = (-(n : ℤ) - 1) ^ 2 + (g 0 + 1 - g (-1)) * (-n - 1) + g 0) := by
    intro n
    induction n with
    | zero =>
      have h0 := h 0
      rw [zero_add, zero_sub] at h0
      refine ⟨⟨by simp, ?_⟩, by simp, ?_⟩
      · simp only [Nat.cast_zero, zero_add]; linarith
      · simp only [Nat.cast_zero, neg_zero, zero_sub]; ring
    | succ n ih =>
      obtain ⟨⟨i1, i2⟩, i3, i4⟩ := ih
      have h1 := h (n + 1)
      have h2 := h (-n - 1)
      rw [add_sub_cancel_right] at h1
      rw [sub_add_cancel] at h2
      push_cast
      refine ⟨⟨i2, ?_⟩, ?_, ?_⟩
      · linear_combination h1 + 2 * i2 - i1
      · rw [neg_add, ← sub_eq_add_neg]; exact i4
      · rw [neg_add, ← sub_eq_add_neg]
        linear_combination h2 + 2 * i4 - i3
  rcases Int.eq_nat_or_neg n with ⟨m, rfl | rfl⟩
  · exact (key m).1.1
  · exact (key m).2.1

/-- a quadratic polynomial with integral coefficients which is non-negative at all integers and has an
odd product of roots has no two real roots -/
theorem disc_le {a q : ℤ} (hq : q % 2 = 1) (h : ∀ n : ℤ, 0 ≤ n ^ 2 - a * n + q) : a ^ 2 ≤ 4 * q := by
  rcases Int.even_or_odd' a with ⟨m, hm | hm⟩
  · have := h m
    rw [hm] at this ⊢
    nlinarith
  · have h1 := h m
    rw [hm] at h1 ⊢
    have h2 : 0 ≤ q - m * (m + 1) := by nlinarith
    have h3 : m * (m + 1) % 2 = 0 := Int.emod_eq_zero_of_dvd (Int.even_mul_succ_self m).two_dvd
    have h4 : 1 ≤ q - m * (m + 1) := by omega
    nlinarith

variable {k : Type} [Field k] [Fintype k] [DecidableEq k]

theorem twist_delta {K : Type} [Field K] [Algebra k[X] K] (E : WeierstrassCurve k) (ha1 : E.a₁ = 0)
    (ha3 : E.a₃ = 0) (l : k[X]) : (twist K E l).Δ = algebraMap k[X] K (l ^ 6 * C E.Δ) := by
  simp only [twist, WeierstrassCurve.Δ, WeierstrassCurve.b₂, WeierstrassCurve.b₄, WeierstrassCurve.b₆,
    WeierstrassCurve.b₈, ha1, ha3, map_mul, map_add, map_sub, map_neg, map_pow, map_ofNat, map_zero]
  ring

theorem rep_ht_unique {K : Type} [Field K] [DecidableEq K] [Algebra k[X] K] [IsFractionRing k[X] K]
    {E : WeierstrassCurve k} [E.IsElliptic] (ha1 : E.a₁ = 0) (ha3 : E.a₃ = 0)
    (h2 : (2 : k) ≠ 0) {l : k[X]} (hl : l ≠ 0) {P : (twist K E l).toAffine.Point} {a b c d : k[X]}
    (h : Rep P a b) (h' : Rep P c d) : ht a b = ht c d := by
  have hl' : algebraMap k[X] K l ≠ 0 :=
    (map_ne_zero_iff _ (IsFractionRing.injective k[X] K)).2 hl
  have h0 : Rep (0 : (twist K E l).toAffine.Point) 1 0 :=
    ⟨isCoprime_one_left, algebraMap k[X] K l, hl', by simp [xr_zero], by simp [xr_zero]⟩
  have hp := parallelogram ha1 ha3 h2 hl h' h0 (α := a) (β := b) (γ := a) (δ := b)
    (by rw [add_zero]; exact h) (by rw [sub_zero]; exact h)
  have : ht (1 : k[X]) 0 = 0 := by simp [ht]
  omega

/-- the values of a quadratic polynomial are heights, so they are non-negative -/
theorem nonneg (hk : ringChar k ≠ 2) (E : WeierstrassCurve k) [E.IsElliptic] (ha1 : E.a₁ = 0)
    (ha3 : E.a₃ = 0) (n : ℤ) :
    0 ≤ n ^ 2 - (((zs E).card + 2 * (ss E).card + 1 : ℤ) - (Fintype.card k + 1)) * n +
      Fintype.card k := by
  classical
  have h2 : (2 : k) ≠ 0 := Ring.two_ne_zero hk
  have hE : E.Δ ≠ 0 := E.isUnit_Δ.ne_zero
  have hodd := FiniteField.odd_card_of_char_ne_two hk
  have hinj := IsFractionRing.injective k[X] (FractionRing k[X])
  have hl := rhs_ne_zero E
  have hl' : algebraMap k[X] (FractionRing k[X]) (rhs E) ≠ 0 := (map_ne_zero_iff _ hinj).2 hl
  have hΔ : (twist (FractionRing k[X]) E (rhs E)).Δ ≠ 0 := by
    rw [twist_delta E ha1 ha3]
    exact (map_ne_zero_iff _ hinj).2 (mul_ne_zero (pow_ne_zero 6 hl) (C_ne_zero.2 hE))
  obtain ⟨φ, hφ⟩ : ∃ φ, φ = algebraMap k[X] (FractionRing k[X]) := ⟨_, rfl⟩
  have hP : (twist (FractionRing k[X]) E (rhs E)).toAffine.Nonsingular (φ (rhs E * X)) (φ (rhs E ^ 2)) := by
    rw [← Affine.equation_iff_nonsingular_of_Δ_ne_zero hΔ, Affine.equation_iff]
    simp only [twist, zero_mul, add_zero, ← hφ]
    simp only [← map_pow, ← map_mul, ← map_add]
    congr 1
    have : rhs E = X ^ 3 + C E.a₂ * X ^ 2 + C E.a₄ * X + C E.a₆ := rfl
    linear_combination rhs E ^ 3 * this
  have hQ : (twist (FractionRing k[X]) E (rhs E)).toAffine.Nonsingular
      (φ (rhs E * X ^ Fintype.card k)) (φ (rhs E ^ (Fintype.card k / 2 + 2))) := by
    rw [← Affine.equation_iff_nonsingular_of_Δ_ne_zero hΔ, Affine.equation_iff]
    simp only [twist, zero_mul, add_zero, ← hφ]
    simp only [← map_pow, ← map_mul, ← map_add]
    congr 1
    have h3 : (rhs E ^ (Fintype.card k / 2 + 2)) ^ 2 = rhs E ^ 3 * rhs E ^ Fintype.card k := by
      rw [← pow_mul, ← pow_add]; congr 1; omega
    rw [h3, rhs_pow]
    ring
  obtain ⟨P, rfl'⟩ : ∃ P, P = Affine.Point.some _ _ hP := ⟨_, rfl⟩
  obtain ⟨Q, rflQ⟩ : ∃ Q, Q = Affine.Point.some _ _ hQ := ⟨_, rfl⟩
  have repP : Rep P X 1 := ⟨isCoprime_one_right, 1, one_ne_zero, by rw [rfl', xr, one_mul, hφ], by
    rw [rfl', xr, one_mul, map_one]⟩
  have repQ : Rep Q (X ^ Fintype.card k) 1 := ⟨isCoprime_one_right, 1, one_ne_zero, by
    rw [rflQ, xr, one_mul, hφ], by rw [rflQ, xr, one_mul, map_one]⟩
  have repD : ∃ a b, Rep (Q - P) a b ∧ ht a b = (zs E).card + 2 * (ss E).card + 1 := by
    obtain ⟨a, b, c, e1, e2, c0, b0, hab, hh⟩ := reduced hk E hE ha1 ha3
    refine ⟨a, b, ⟨hab, φ b, by rw [hφ]; exact (map_ne_zero_iff _ hinj).2 b0, ?_, ?_⟩, hh⟩
    · have hX : (X ^ Fintype.card k - X : k[X]) ≠ 0 :=
        FiniteField.X_pow_card_sub_X_ne_zero k Fintype.one_lt_card
      have hx : φ (rhs E * X ^ Fintype.card k) ≠ φ (rhs E * X) := by
        rw [hφ]
        intro h
        exact hX (sub_eq_zero.2 (mul_left_cancel₀ hl (hinj h)))
      rw [sub_eq_add_neg, rfl', rflQ, Affine.Point.neg_some, Affine.Point.add_of_X_ne hx, xr]
      simp only []
      rw [Affine.slope_of_X_ne hx]
      have hn : (twist (FractionRing k[X]) E (rhs E)).toAffine.negY (φ (rhs E * X)) (φ (rhs E ^ 2)) =
          -φ (rhs E ^ 2) := by
        rw [Affine.negY]; simp [twist]
      rw [hn]
      obtain ⟨s, hs⟩ : ∃ s, s = (φ (rhs E ^ (Fintype.card k / 2 + 2)) - -φ (rhs E ^ 2)) /
        (φ (rhs E * X ^ Fintype.card k) - φ (rhs E * X)) := ⟨_, rfl⟩
      rw [← hs]
      have hs1 : s * φ (X ^ Fintype.card k - X) = φ (rhs E * (rhs E ^ (Fintype.card k / 2) + 1)) := by
        have h3 := (div_eq_iff (sub_ne_zero.2 hx)).1 hs.symm
        refine mul_left_cancel₀ (a := φ (rhs E)) (by rw [hφ]; exact hl') ?_
        have e3 : φ (rhs E) * φ (rhs E * (rhs E ^ (Fintype.card k / 2) + 1)) =
            φ (rhs E ^ (Fintype.card k / 2 + 2)) - -φ (rhs E ^ 2) := by
          rw [← map_neg, ← map_sub, ← map_mul]; congr 1; ring
        rw [e3, h3, map_sub, map_mul, map_mul]
        ring
      refine mul_left_cancel₀ (a := φ c) (by rw [hφ]; exact (map_ne_zero_iff _ hinj).2 c0) ?_
      have e4 : φ c * algebraMap k[X] (FractionRing k[X]) (rhs E * a) = φ (rhs E * num0 E) := by
        rw [← hφ, ← map_mul, e1]; congr 1; ring
      rw [e4, ← mul_assoc, ← map_mul, ← e2, Affine.addX]
      simp only [twist, zero_mul, add_zero, ← hφ]
      unfold num0
      simp only [map_mul, map_sub, map_add, map_pow, map_one] at hs1 ⊢
      linear_combination (-(s * (φ X ^ Fintype.card k - φ X)) -
        φ (rhs E) * (φ (rhs E) ^ (Fintype.card k / 2) + 1)) * hs1
    · rw [sub_eq_add_neg, rfl', rflQ, Affine.Point.neg_some]
      rw [Affine.Point.add_of_X_ne, xr, mul_one, hφ]
      rw [hφ]
      intro h
      exact FiniteField.X_pow_card_sub_X_ne_zero k Fintype.one_lt_card
        (sub_eq_zero.2 (mul_left_cancel₀ hl (hinj h)))
  have hrep : ∀ n : ℤ, ∃ g : ℕ, ∃ a b, Rep (Q + n • P) a b ∧ ht a b = g := fun n => by
    obtain ⟨a, b, h⟩ := exists_rep hl (Q + n • P)
    exact ⟨_, a, b, h, rfl⟩
  choose g hg using hrep
  have huniq : ∀ n a b, Rep (Q + n • P) a b → ht a b = g n := by
    intro n a b h
    obtain ⟨a', b', h', e⟩ := hg n
    rw [← e]
    exact rep_ht_unique ha1 ha3 h2 hl h h'
  have g0 : g 0 = Fintype.card k := by
    rw [← huniq 0 (X ^ Fintype.card k) 1 (by rw [zero_zsmul, add_zero]; exact repQ)]
    simp [ht]
  have g1 : g (-1) = (zs E).card + 2 * (ss E).card + 1 := by
    obtain ⟨a, b, h, e⟩ := repD
    rw [← huniq (-1) a b (by rw [neg_one_zsmul, ← sub_eq_add_neg]; exact h), e]
  have hrec : ∀ n : ℤ, (g (n + 1) : ℤ) + g (n - 1) = 2 * g n + 2 := by
    intro n
    obtain ⟨a, b, h, e⟩ := hg n
    obtain ⟨a1, b1, h1, e1⟩ := hg (n + 1)
    obtain ⟨a2, b2, h3, e2⟩ := hg (n - 1)
    have := parallelogram ha1 ha3 h2 hl h repP (by rw [add_assoc, ← add_one_zsmul]; exact h1)
      (by rw [add_sub_assoc]; rw [sub_one_zsmul, ← sub_eq_add_neg] at h3; exact h3)
    have hX : ht (X : k[X]) 1 = 1 := by simp [ht]
    rw [hX] at this
    omega
  have := closed_form (g := fun n => (g n : ℤ)) hrec n
  rw [g0, g1] at this
  have hpos : (0 : ℤ) ≤ g n := Int.natCast_nonneg _
  push_cast at this
  linarith

/-! ### the number of points -/

/-- points are infinity and the solutions of the equation -/
def pointEquiv (E : WeierstrassCurve k) (hE : E.Δ ≠ 0) :
    E.toAffine.Point ≃ Option (Σ x : k, {y : k // E.toAffine.Equation x y}) where
  toFun
    | .zero => none
    | .some x y h => some ⟨x, y, h.1⟩
  invFun
    | none => .zero
    | some ⟨x, y, h⟩ => .some x y ((Affine.equation_iff_nonsingular_of_Δ_ne_zero hE).1 h)
  left_inv := by rintro (_ | ⟨x, y, h⟩) <;> rfl
  right_inv := by rintro (_ | ⟨x, y, h⟩) <;> rfl

/-- the equation after completing the square -/
def short (E : WeierstrassCurve k) : WeierstrassCurve k := ⟨0, E.b₂ / 4, 0, E.b₄ / 2, E.b₆ / 4⟩

theorem short_delta (h2 : (2 : k) ≠ 0) (E : WeierstrassCurve k) : (short E).Δ = E.Δ := by
  have h4 : (4 : k) ≠ 0 := by
    have : (4 : k) = 2 * 2 := by norm_num
    rw [this]; exact mul_ne_zero h2 h2
  simp only [short, WeierstrassCurve.Δ, WeierstrassCurve.b₂, WeierstrassCurve.b₄, WeierstrassCurve.b₆,
    WeierstrassCurve.b₈]
  field_simp
  ring

theorem fibre_card (hk : ringChar k ≠ 2) (E : WeierstrassCurve k) (x : k) :
    Nat.card {y : k // E.toAffine.Equation x y} =
      (if x ∈ zs (short E) then 1 else 0) + 2 * (if x ∈ ss (short E) then 1 else 0) := by
  have h2 : (2 : k) ≠ 0 := Ring.two_ne_zero hk
  have h4 : (4 : k) ≠ 0 := by
    have : (4 : k) = 2 * 2 := by norm_num
    rw [this]; exact mul_ne_zero h2 h2
  have e : {y : k // E.toAffine.Equation x y} ≃ {z : k // z ^ 2 = (rhs (short E)).eval x} := by
    refine Equiv.subtypeEquiv (Equiv.addRight ((E.a₁ * x + E.a₃) / 2)) fun y => ?_
    rw [Affine.equation_iff, rhs_eval]
    simp only [short, WeierstrassCurve.b₂, WeierstrassCurve.b₄, WeierstrassCurve.b₆,
      Equiv.coe_addRight]
    constructor
    · intro h
      field_simp
      linear_combination 16 * h
    · intro h
      field_simp at h
      refine mul_left_cancel₀ (mul_ne_zero h4 h4) ?_
      linear_combination h
  have hc := quadraticChar_card_sqrts hk ((rhs (short E)).eval x)
  have hset : Nat.card {z : k // z ^ 2 = (rhs (short E)).eval x} =
      ({z : k | z ^ 2 = (rhs (short E)).eval x}.toFinset).card := by
    rw [Nat.card_eq_fintype_card, Set.toFinset_card]
    rfl
  rw [Nat.card_congr e, hset]
  zify
  rw [hc]
  by_cases h0 : (rhs (short E)).eval x = 0
  · rw [if_pos (mem_zs.2 h0), if_neg (fun h => (mem_ss.1 h).1 h0), h0, quadraticChar_zero]
    rfl
  · rw [if_neg (fun h => h0 (mem_zs.1 h))]
    by_cases hs : IsSquare ((rhs (short E)).eval x)
    · rw [if_pos (mem_ss.2 ⟨h0, hs⟩), (quadraticChar_one_iff_isSquare h0).2 hs]
      rfl
    · rw [if_neg (fun h => hs (mem_ss.1 h).2), quadraticChar_neg_one_iff_not_isSquare.2 hs]
      rfl

theorem point_card (hk : ringChar k ≠ 2) (E : WeierstrassCurve k) (hE : E.Δ ≠ 0) :
    Nat.card E.toAffine.Point = (zs (short E)).card + 2 * (ss (short E)).card + 1 := by
  classical
  rw [Nat.card_congr (pointEquiv E hE), Nat.card_eq_fintype_card, Fintype.card_option,
    Fintype.card_sigma]
  congr 1
  have : ∀ x : k, Fintype.card {y : k // E.toAffine.Equation x y} =
      (if x ∈ zs (short E) then 1 else 0) + 2 * (if x ∈ ss (short E) then 1 else 0) := fun x => by
    rw [← fibre_card hk E x, Nat.card_eq_fintype_card]
  simp only [this]
  rw [Finset.sum_add_distrib, ← Finset.mul_sum, Finset.sum_boole, Finset.sum_boole]
  simp

/-- **Hasse's theorem** for finite fields of odd characteristic. -/
theorem hasse_odd (hk : ringChar k ≠ 2) (E : WeierstrassCurve k) (hE : E.Δ ≠ 0) :
    ((Nat.card E.toAffine.Point : ℤ) - (Fintype.card k + 1)) ^ 2 ≤ 4 * Fintype.card k := by
  have h2 : (2 : k) ≠ 0 := Ring.two_ne_zero hk
  have : (short E).IsElliptic := ⟨by rw [short_delta h2]; exact isUnit_iff_ne_zero.2 hE⟩
  refine disc_le (by exact_mod_cast FiniteField.odd_card_of_char_ne_two hk) fun n => ?_
  rw [point_card hk E hE]
  have := nonneg hk (short E) rfl rfl n
  push_cast
  exact this

/-- **Hasse's theorem** for the fields of the code: prime fields. -/
theorem hasse {p : ℕ} [Fact p.Prime] (E : WeierstrassCurve (ZMod p)) (hE : E.Δ ≠ 0) :
    ((Nat.card E.toAffine.Point : ℤ) - (p + 1)) ^ 2 ≤ 4 * p := by
  classical
  by_cases hp : p = 2
  · subst hp
    have h1 : Nat.card E.toAffine.Point =
        Fintype.card (Σ x : ZMod 2, {y : ZMod 2 // E.toAffine.Equation x y}) + 1 := by
      rw [Nat.card_congr (pointEquiv E hE), Nat.card_eq_fintype_card, Fintype.card_option]
    have h2 : Fintype.card (Σ x : ZMod 2, {y : ZMod 2 // E.toAffine.Equation x y}) ≤ 4 := by
      rw [Fintype.card_sigma]
      refine (Finset.sum_le_card_nsmul _ _ 2 fun x _ => ?_).trans (by simp)
      exact (Fintype.card_subtype_le _).trans (by rw [ZMod.card])
    rw [h1]
    push_cast
    generalize Fintype.card (Σ x : ZMod 2, {y : ZMod 2 // E.toAffine.Equation x y}) = n at h2
    have : (n : ℤ) ≤ 4 := by exact_mod_cast h2
    nlinarith
  · have := hasse_odd (by rw [ZMod.ringChar_zmod_n]; exact hp) E hE
    rw [ZMod.card] at this
    exact this

end Eclib.Hasse
