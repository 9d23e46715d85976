import Mathlib.RingTheory.RootsOfUnity.PrimitiveRoots
import Mathlib.FieldTheory.Finite.Basic
import Verif.Ff.Tlss
import Verif.Ff.Recip
import Verif.Ff.Props

/-!
# C103: the maps of TLSS are homomorphisms
-/

set_option linter.unusedSectionVars false

namespace Eclib.Ff

open Pmod (Pq coords)
open Polynomial
open WeierstrassCurve.Affine (CoordinateRing)
open WeierstrassCurve.Affine.CoordinateRing (mk XClass YClass XIdeal YIdeal XYIdeal)
open WeierstrassCurve.Affine.Point (some)

variable {F : Type} [Field F] [DecidableEq F] {E : WeierstrassCurve F}

/-! ## reciprocity for all triples of points -/

theorem norm_eval {x y : F} (h : E.toAffine.Equation x y) (h' : E.toAffine.Equation x (E.toAffine.negY x y))
    (z : E.toAffine.CoordinateRing) : (Algebra.norm F[X] z).eval x = ev h z * ev h' z := by
  obtain ⟨p, q, rfl⟩ := CoordinateRing.exists_smul_basis_eq z
  have e := (WeierstrassCurve.Affine.equation_iff x y).mp h
  rw [CoordinateRing.norm_smul_basis, ev_basis, ev_basis]
  simp only [eval_add, eval_sub, eval_mul, eval_pow, eval_X, eval_C, WeierstrassCurve.Affine.negY]
  linear_combination (q.eval x) ^ 2 * e

section
variable {T : E.toAffine.Point} {m : ℕ}

/-- the function with divisor `m(T) - mO` -/
noncomputable abbrev fT (T : E.toAffine.Point) (m : ℕ) : E.toAffine.CoordinateRing := toCR E (weilPol E (coords T) m)

theorem recip_neg (hm : 2 ≤ m) (hT : m • T = 0) (h0 : T ≠ 0) (A : E.toAffine.Point) :
    ∃ d, vl (fT T m) A * vl (fT T m) (-A) = d ^ m := by
  cases A with
  | zero => exact ⟨1, by
      change vl (fT T m) 0 * vl (fT T m) (-0) = 1 ^ m
      rw [neg_zero, vl_zero, one_pow, one_mul]⟩
  | some x y h =>
    cases T with
    | zero => exact absurd rfl h0
    | some xT yT hTT =>
      have hN := weilPol_norm (some xT yT hTT) m hm
      unfold NInv at hN
      obtain ⟨l, rfl⟩ : ∃ l, m = l + 1 := ⟨m - 1, by omega⟩
      rw [Nat.add_sub_cancel] at hN
      rw [succ_nsmul, add_comm] at hT
      have hl := eq_neg_of_add_eq_zero_right hT
      rw [hl, ord_neg, ord_some, Pmod.coords_neg, mul_one] at hN
      change Algebra.norm F[X] (fT (some xT yT hTT) (l + 1)) = (-1) ^ (l + 1) * ((X - C xT) ^ l * (X - C xT)) at hN
      refine ⟨xT - x, ?_⟩
      rw [WeierstrassCurve.Affine.Point.neg_some, vl_some, vl_some, ← norm_eval, hN]
      simp only [eval_mul, eval_pow, eval_neg, eval_one, eval_sub, eval_X, eval_C]
      rw [← pow_succ, ← mul_pow]
      congr 1
      ring

theorem recip (hm : 2 ≤ m) (hT : m • T = 0) (h0 : T ≠ 0) {A B D : E.toAffine.Point} (hs : A + B + D = 0) :
    ∃ d, vl (fT T m) A * vl (fT T m) B * vl (fT T m) D = d ^ m := by
  have hD := eq_neg_of_add_eq_zero_right hs
  subst hD
  by_cases hA : A = 0
  · subst hA
    rw [zero_add, vl_zero, one_mul]
    exact recip_neg hm hT h0 B
  by_cases hB : B = 0
  · subst hB
    rw [add_zero, vl_zero, mul_one]
    exact recip_neg hm hT h0 A
  by_cases hAB : A + B = 0
  · rw [hAB, neg_zero, vl_zero, mul_one, eq_neg_of_add_eq_zero_right hAB]
    exact recip_neg hm hT h0 A
  have hi := weilPol_ideal T m hm hT
  have hM := weilPol_mon T m hm hT
  cases A with
  | zero => exact absurd rfl hA
  | some x₁ y₁ h₁ =>
    cases B with
    | zero => exact absurd rfl hB
    | some x₂ y₂ h₂ =>
      have hxy : ¬ (x₁ = x₂ ∧ y₁ = E.toAffine.negY x₂ y₂) := fun h =>
        hAB (WeierstrassCurve.Affine.Point.add_of_Y_eq h.1 h.2)
      cases T with
      | zero => exact absurd rfl h0
      | some xT yT hTT =>
        rw [ord_some, mul_one] at hM
        exact recip_line hTT hi hM h₁ h₂ hxy

theorem vl_ne (hm : 2 ≤ m) (hT : m • T = 0) {A : E.toAffine.Point} (hA : A ≠ T) : vl (fT T m) A ≠ 0 := by
  cases A with
  | zero => exact one_ne_zero
  | some x y h =>
    intro hv
    have := (ev_eq_zero h _ (List.replicate m T) (by rw [weilPol_ideal T m hm hT, List.map_replicate, List.prod_replicate])).mp hv
    exact hA (List.eq_of_mem_replicate this)

theorem vl_self (hm : 2 ≤ m) (hT : m • T = 0) (h0 : T ≠ 0) : vl (fT T m) T = 0 := by
  cases T with
  | zero => exact absurd rfl h0
  | some x y h =>
    refine (ev_eq_zero h _ (List.replicate m (some x y h)) (by
      rw [weilPol_ideal _ m hm hT, List.map_replicate, List.prod_replicate])).mpr ?_
    exact List.mem_replicate.mpr ⟨by omega, rfl⟩

end

/-! ## a character from its discrete logarithm -/

section
variable {G : Type} [AddCommGroup G]

/-- a map with values in the p-th roots of unity and product 1 on triples of sum 0 gives a homomorphism to `ZMod p` -/
theorem exists_hom {p : ℕ} {ζ : F} (hζ : IsPrimitiveRoot ζ p) (hp : 0 < p) (χ : G → F) (h1 : χ 0 = 1)
    (h3 : ∀ A B D, A + B + D = 0 → χ A * χ B * χ D = 1) (ans : G → ℕ) (ha : ∀ A, ζ ^ ans A = χ A) :
    ∃ φ : G →+ ZMod p, ∀ A, φ A = (ans A : ZMod p) := by
  have h2 : ∀ A B, χ (A + B) = χ A * χ B := fun A B => by
    have e1 := h3 A B (-(A + B)) (by abel)
    have e2 := h3 (A + B) (-(A + B)) 0 (by abel)
    rw [h1, mul_one] at e2
    have hne : χ (-(A + B)) ≠ 0 := right_ne_zero_of_mul_eq_one e2
    exact mul_right_cancel₀ hne (e2.trans e1.symm)
  have hmod : ∀ i : ℕ, ζ ^ i = ζ ^ (i % p) := fun i => by
    conv_lhs => rw [← Nat.div_add_mod i p, pow_add, pow_mul, hζ.pow_eq_one, one_pow, one_mul]
  have hadd : ∀ A B, (ans (A + B) : ZMod p) = ans A + ans B := fun A B => by
    have : ζ ^ ans (A + B) = ζ ^ (ans A + ans B) := by rw [pow_add, ha, ha, ha, h2]
    rw [hmod, hmod (ans A + ans B)] at this
    have := hζ.pow_inj (Nat.mod_lt _ hp) (Nat.mod_lt _ hp) this
    have h : ((ans (A + B) : ℕ) : ZMod p) = ((ans A + ans B : ℕ) : ZMod p) := (ZMod.natCast_eq_natCast_iff _ _ _).mpr this
    rw [h, Nat.cast_add]
  exact ⟨AddMonoidHom.mk' (fun A => (ans A : ZMod p)) hadd, fun A => rfl⟩

end

/-! ## p odd -/

section
variable [Fintype F]

variable {T : E.toAffine.Point} {p : ℕ}

/-- the character for `p > 2` -/
noncomputable def chi (T : E.toAffine.Point) (p : ℕ) (A : E.toAffine.Point) : F :=
  if A = T then (vl (fT T p) (-T) ^ ((Fintype.card F - 1) / p))⁻¹ else vl (fT T p) A ^ ((Fintype.card F - 1) / p)

theorem pow_card {d : F} {p : ℕ} (hp : p ∣ Fintype.card F - 1) (hd : d ≠ 0) :
    (d ^ p) ^ ((Fintype.card F - 1) / p) = 1 := by
  rw [← pow_mul, Nat.mul_div_cancel' hp, FiniteField.pow_card_sub_one_eq_one d hd]

theorem chi_neg (hp : p.Prime) (hp2 : p ≠ 2) (hq : p ∣ Fintype.card F - 1) (hT : p • T = 0) (h0 : T ≠ 0) (A : E.toAffine.Point) :
    chi T p A * chi T p (-A) = 1 := by
  have h2 := hp.two_le
  have hne : -T ≠ T := fun h => by
    have e2 : 2 • T = 0 := by rw [two_smul]; nth_rw 1 [← h]; exact neg_add_cancel T
    have hd := Nat.dvd_gcd (addOrderOf_dvd_iff_nsmul_eq_zero.mpr hT) (addOrderOf_dvd_iff_nsmul_eq_zero.mpr e2)
    rw [(Nat.coprime_primes hp Nat.prime_two).mpr hp2, Nat.dvd_one, AddMonoid.addOrderOf_eq_one_iff] at hd
    exact h0 hd
  unfold chi
  by_cases hA : A = T
  · subst hA
    rw [if_pos rfl, if_neg hne, inv_mul_cancel₀ (pow_ne_zero _ (vl_ne h2 hT hne))]
  · rw [if_neg hA]
    by_cases hA' : -A = T
    · rw [if_pos hA', ← hA', neg_neg, mul_inv_cancel₀]
      rw [hA']
      exact pow_ne_zero _ (vl_ne h2 hT hA)
    · rw [if_neg hA', ← mul_pow]
      obtain ⟨d, hd⟩ := recip_neg h2 hT h0 A
      rw [hd, pow_card hq]
      rintro rfl
      rw [zero_pow (by omega)] at hd
      exact mul_ne_zero (vl_ne h2 hT hA) (vl_ne h2 hT hA') hd

theorem chi_zero (h0 : T ≠ 0) : chi T p (0 : E.toAffine.Point) = 1 := by
  rw [chi, if_neg (Ne.symm h0), vl_zero, one_pow]

theorem chi_triple (hp : p.Prime) (hp2 : p ≠ 2) (hq : p ∣ Fintype.card F - 1) (hT : p • T = 0) (h0 : T ≠ 0)
    {A B D : E.toAffine.Point} (hs : A + B + D = 0) : chi T p A * chi T p B * chi T p D = 1 := by
  have h2 := hp.two_le
  have main : ∀ A B D : E.toAffine.Point, A + B + D = 0 → A ≠ T → B ≠ T → D ≠ T → chi T p A * chi T p B * chi T p D = 1 := by
    intro A B D hs hA hB hD
    unfold chi
    rw [if_neg hA, if_neg hB, if_neg hD, ← mul_pow, ← mul_pow]
    obtain ⟨d, hd⟩ := recip h2 hT h0 hs
    rw [hd, pow_card hq]
    rintro rfl
    rw [zero_pow (by omega)] at hd
    exact mul_ne_zero (mul_ne_zero (vl_ne h2 hT hA) (vl_ne h2 hT hB)) (vl_ne h2 hT hD) hd
  have two : ∀ A B : E.toAffine.Point, A + B = 0 → chi T p A * chi T p B = 1 := fun A B h => by
    rw [eq_neg_of_add_eq_zero_right h]
    exact chi_neg hp hp2 hq hT h0 A
  by_cases hneg : -A ≠ T ∧ -B ≠ T ∧ -D ≠ T
  · have h := main (-A) (-B) (-D) (by rw [← neg_add, ← neg_add, hs, neg_zero]) hneg.1 hneg.2.1 hneg.2.2
    have e1 := chi_neg hp hp2 hq hT h0 A
    have e2 := chi_neg hp hp2 hq hT h0 B
    have e3 := chi_neg hp hp2 hq hT h0 D
    calc _ = (chi T p A * chi T p B * chi T p D) * (chi T p (-A) * chi T p (-B) * chi T p (-D)) := by rw [h, mul_one]
      _ = (chi T p A * chi T p (-A)) * (chi T p B * chi T p (-B)) * (chi T p D * chi T p (-D)) := by ring
      _ = 1 := by rw [e1, e2, e3]; ring
  by_cases hpos : A ≠ T ∧ B ≠ T ∧ D ≠ T
  · exact main A B D hs hpos.1 hpos.2.1 hpos.2.2
  -- both `T` and `-T` occur
  have hz : chi T p (0 : E.toAffine.Point) = 1 := chi_zero h0
  have hTT : ¬ (T = -T) := fun h => by
    have e2 : 2 • T = 0 := by rw [two_smul]; nth_rw 1 [h]; exact neg_add_cancel T
    have hd := Nat.dvd_gcd (addOrderOf_dvd_iff_nsmul_eq_zero.mpr hT) (addOrderOf_dvd_iff_nsmul_eq_zero.mpr e2)
    rw [(Nat.coprime_primes hp Nat.prime_two).mpr hp2, Nat.dvd_one, AddMonoid.addOrderOf_eq_one_iff] at hd
    exact h0 hd
  have key : A + B = 0 ∧ D = 0 ∨ A + D = 0 ∧ B = 0 ∨ B + D = 0 ∧ A = 0 := by
    have p1 : A = T ∨ B = T ∨ D = T := by tauto
    have p2 : -A = T ∨ -B = T ∨ -D = T := by tauto
    have e : ∀ X : E.toAffine.Point, -X = T ↔ X = -T := fun X => neg_eq_iff_eq_neg
    simp only [e] at p2
    have q1 : ∀ X Y Z : E.toAffine.Point, X + Y + Z = 0 → X = T → Y = -T → X + Y = 0 ∧ Z = 0 := by
      rintro X Y Z h rfl rfl
      rw [add_neg_cancel, zero_add] at h
      exact ⟨add_neg_cancel _, h⟩
    have s1 : A + D + B = 0 := by rw [← hs]; abel
    have s2 : B + A + D = 0 := by rw [← hs]; abel
    have s3 : B + D + A = 0 := by rw [← hs]; abel
    have s4 : D + A + B = 0 := by rw [← hs]; abel
    have s5 : D + B + A = 0 := by rw [← hs]; abel
    rcases p1 with p1 | p1 | p1 <;> rcases p2 with p2 | p2 | p2
    · exact absurd (p1.symm.trans p2) hTT
    · exact Or.inl (q1 _ _ _ hs p1 p2)
    · exact Or.inr (Or.inl (q1 _ _ _ s1 p1 p2))
    · have := q1 _ _ _ s2 p1 p2; rw [add_comm] at this; exact Or.inl this
    · exact absurd (p1.symm.trans p2) hTT
    · exact Or.inr (Or.inr (q1 _ _ _ s3 p1 p2))
    · have := q1 _ _ _ s4 p1 p2; rw [add_comm] at this; exact Or.inr (Or.inl this)
    · have := q1 _ _ _ s5 p1 p2; rw [add_comm] at this; exact Or.inr (Or.inr this)
    · exact absurd (p1.symm.trans p2) hTT
  rcases key with ⟨k1, k2⟩ | ⟨k1, k2⟩ | ⟨k1, k2⟩
  · rw [k2, hz, mul_one, two _ _ k1]
  · rw [k2, hz, mul_one, two _ _ k1]
  · rw [k2, hz, one_mul, two _ _ k1]

/-! ### the list of roots of unity -/

theorem rootsOfUnity_length (ζ : F) (p : ℕ) : (rootsOfUnity ζ p).length = p := by
  rw [rootsOfUnity, List.length_iterate]

theorem rootsOfUnity_getElem (ζ : F) (p i : ℕ) (h : i < (rootsOfUnity ζ p).length) : (rootsOfUnity ζ p)[i] = ζ ^ i := by
  simp only [rootsOfUnity, List.getElem_iterate]
  rw [mul_right_iterate]
  simp

theorem idxOf_root {ζ mu : F} (hζ : IsPrimitiveRoot ζ p) (hp : 0 < p) (h : mu ^ p = 1) :
    (rootsOfUnity ζ p).idxOf mu < p ∧ ζ ^ ((rootsOfUnity ζ p).idxOf mu) = mu := by
  have : NeZero p := ⟨by omega⟩
  obtain ⟨i, hi, rfl⟩ := hζ.eq_pow_of_pow_eq_one h
  have hi' : i < (rootsOfUnity ζ p).length := by rwa [rootsOfUnity_length]
  have hmem : ζ ^ i ∈ rootsOfUnity ζ p := by
    rw [← rootsOfUnity_getElem ζ p i hi']
    exact List.getElem_mem hi'
  have hlt := List.idxOf_lt_length_of_mem hmem
  refine ⟨by rwa [rootsOfUnity_length] at hlt, ?_⟩
  rw [← rootsOfUnity_getElem ζ p _ hlt, List.getElem_idxOf hlt]

theorem evaluate_vl (g : FF F) {A : E.toAffine.Point} (hA : A ≠ 0) : evaluate g (coords A) = .some (vl (toCR E g) A) := by
  cases A with
  | zero => exact absurd rfl hA
  | some x y h => exact evaluate_spec g h.1

theorem tlOdd_spec {ζ : F} (hζ : IsPrimitiveRoot ζ p) (hp : p.Prime) (hp2 : p ≠ 2) (hq : p ∣ Fintype.card F - 1) (hT : p • T = 0)
    (h0 : T ≠ 0) {A : E.toAffine.Point} (hA : A ≠ 0) :
    ∃ n : ℕ, tlOdd E p ((Fintype.card F - 1) / p) (rootsOfUnity ζ p) (weilPol E (coords T) p) (coords A) = .some (n : ℤ) ∧
      n < p ∧ ζ ^ n = chi T p A := by
  have h2 := hp.two_le
  have hone : ∀ {t : F}, t ≠ 0 → (t ^ ((Fintype.card F - 1) / p)) ^ p = 1 := fun {t} ht => by
    rw [← pow_mul, Nat.div_mul_cancel hq, FiniteField.pow_card_sub_one_eq_one t ht]
  unfold tlOdd
  rw [evaluate_vl _ hA, Option.bind_eq_bind, Option.bind_some]
  by_cases hAT : A = T
  · have hz : vl (fT T p) A = 0 := by rw [hAT]; exact vl_self h2 hT h0
    have hnT : -T ≠ T := fun h => by
      have := chi_neg (E := E) hp hp2 hq hT h0 T
      rw [h] at this
      have e2 : 2 • T = 0 := by rw [two_smul]; nth_rw 1 [← h]; exact neg_add_cancel T
      have hd := Nat.dvd_gcd (addOrderOf_dvd_iff_nsmul_eq_zero.mpr hT) (addOrderOf_dvd_iff_nsmul_eq_zero.mpr e2)
      rw [(Nat.coprime_primes hp Nat.prime_two).mpr hp2, Nat.dvd_one, AddMonoid.addOrderOf_eq_one_iff] at hd
      exact h0 hd
    have hv := vl_ne h2 hT hnT
    simp only [hz, if_true]
    rw [← Pmod.coords_neg, hAT, evaluate_vl _ (neg_ne_zero.mpr h0), Option.bind_some]
    rw [chi, if_pos rfl]
    by_cases h1 : vl (fT T p) (-T) ^ ((Fintype.card F - 1) / p) = 1
    · rw [if_pos h1, h1]
      exact ⟨0, rfl, by omega, by simp⟩
    · rw [if_neg h1]
      obtain ⟨i1, i2⟩ := idxOf_root hζ (by omega) (hone hv)
      generalize (rootsOfUnity ζ p).idxOf (vl (fT T p) (-T) ^ ((Fintype.card F - 1) / p)) = dl at i1 i2 ⊢
      have hdl : dl ≠ 0 := by
        rintro rfl
        rw [pow_zero] at i2
        exact h1 i2.symm
      refine ⟨p - dl, by rw [Nat.cast_sub i1.le]; rfl, by omega, ?_⟩
      rw [← i2]
      refine eq_inv_of_mul_eq_one_left ?_
      rw [← pow_add, Nat.sub_add_cancel i1.le, hζ.pow_eq_one]
  · have hv := vl_ne h2 hT hAT
    simp only [if_neg hv]
    rw [Option.bind_some, chi, if_neg hAT]
    by_cases h1 : vl (fT T p) A ^ ((Fintype.card F - 1) / p) = 1
    · rw [if_pos h1, h1]
      exact ⟨0, rfl, by omega, by simp⟩
    · rw [if_neg h1]
      obtain ⟨i1, i2⟩ := idxOf_root hζ (by omega) (hone hv)
      exact ⟨_, rfl, i1, i2⟩

/-! ## p = 2 -/

/-- the value for `p = 2` -/
noncomputable def t2 (T A : E.toAffine.Point) : F :=
  if A = T then
    match T with
    | .zero => 1
    | WeierstrassCurve.Affine.Point.some x y _ => 4 * (3 * x ^ 2 + 2 * E.a₂ * x + E.a₄ - E.a₁ * y)
  else vl (fT T 2) A

theorem two_torsion {x y : F} {h : E.toAffine.Nonsingular x y} (hT : 2 • some x y h = 0) : 2 * y + E.a₁ * x + E.a₃ = 0 := by
  by_contra hne
  have hy : y ≠ E.toAffine.negY x y := fun e => hne (by
    rw [WeierstrassCurve.Affine.negY] at e
    simp only [WeierstrassCurve.toAffine] at e
    linear_combination e)
  rw [two_smul, WeierstrassCurve.Affine.Point.add_self_of_Y_ne hy] at hT
  cases hT

theorem t2_ne (hchar : (2 : F) ≠ 0) (hT : 2 • T = 0) (A : E.toAffine.Point) : t2 T A ≠ 0 := by
  unfold t2
  by_cases hA : A = T
  · rw [if_pos hA]
    cases T with
    | zero => exact one_ne_zero
    | some x y h =>
      have hy := two_torsion hT
      have hns := (WeierstrassCurve.Affine.nonsingular_iff x y).mp h
      simp only
      have h4 : (4 : F) ≠ 0 := by
        rw [show (4 : F) = 2 * 2 by norm_num]; exact mul_ne_zero hchar hchar
      refine mul_ne_zero h4 fun e => ?_
      rcases hns.2 with h1 | h1
      · exact h1 (by simp only [WeierstrassCurve.toAffine]; linear_combination -e)
      · exact h1 (by simp only [WeierstrassCurve.toAffine]; linear_combination hy)
  · rw [if_neg hA]
    exact vl_ne le_rfl hT hA

theorem vl_two {x y xT yT : F} (h : E.toAffine.Nonsingular x y) (hT : E.toAffine.Nonsingular xT yT) :
    vl (fT (some xT yT hT) 2) (some x y h) = x - xT := by
  change ev h.1 (toCR E (vertical (.pt xT yT))) = _
  rw [← XClass_toCR, ev_XClass]

/-- the value at `T` against the other two points of a line through `T` -/
theorem t2_line {A B : E.toAffine.Point} (h0 : T ≠ 0) (hT : 2 • T = 0) (hA : A ≠ T) (hB : B ≠ T) (hs : T + A + B = 0) :
    t2 T T = 4 * (t2 T A * t2 T B) := by
  have hB' := eq_neg_of_add_eq_zero_right hs
  have hTT : T + T = 0 := by rw [← two_smul ℕ]; exact hT
  cases T with
  | zero => exact absurd rfl h0
  | some xT yT hTn =>
    cases A with
    | zero =>
      exfalso
      apply hB
      have e : some xT yT hTn + (WeierstrassCurve.Affine.Point.zero : E.toAffine.Point) = some xT yT hTn := add_zero _
      rw [hB', e]
      exact (eq_neg_of_add_eq_zero_right hTT).symm
    | some x y h =>
      have hxy : ¬ (xT = x ∧ yT = E.toAffine.negY x y) := fun hh => by
        have h1 := WeierstrassCurve.Affine.Point.add_of_Y_eq (h₁ := hTn) (h₂ := h) hh.1 hh.2
        exact hA (add_left_cancel (h1.trans hTT.symm))
      unfold t2
      rw [if_pos rfl, if_neg hA, if_neg hB]
      have hy := two_torsion hT
      have hadd := WeierstrassCurve.Affine.addPolynomial_slope hTn.1 h.1 hxy
      rw [WeierstrassCurve.Affine.addPolynomial_eq, neg_inj, Cubic.prod_X_sub_C_eq, Cubic.toPoly_injective, Cubic.mk.injEq] at hadd
      obtain ⟨-, e1, e2, e3⟩ := hadd
      rw [WeierstrassCurve.Affine.Point.add_some hxy, WeierstrassCurve.Affine.Point.neg_some] at hB'
      rw [hB', vl_two, vl_two]
      simp only [WeierstrassCurve.toAffine] at e1 e2 ⊢
      clear hB' e3
      generalize WeierstrassCurve.Affine.slope E xT x yT y = ℓ at e1 e2 ⊢
      generalize WeierstrassCurve.Affine.addX E xT x ℓ = w at e1 e2 ⊢
      linear_combination 8 * xT * e1 + 4 * e2 + 4 * ℓ * hy

theorem t2_triple (h0 : T ≠ 0) (hT : 2 • T = 0) {A B D : E.toAffine.Point} (hs : A + B + D = 0) :
    ∃ d, t2 T A * t2 T B * t2 T D = d ^ 2 := by
  have hTT : T + T = 0 := by rw [← two_smul ℕ]; exact hT
  have hz : t2 T (0 : E.toAffine.Point) = 1 := by unfold t2; rw [if_neg (Ne.symm h0), vl_zero]
  have one : ∀ A B : E.toAffine.Point, T + A + B = 0 → ∃ d, t2 T T * t2 T A * t2 T B = d ^ 2 := by
    intro A B hs
    by_cases hA : A = T
    · rw [hA, hTT, zero_add] at hs
      exact ⟨t2 T T, by rw [hA, hs, hz]; ring⟩
    by_cases hB : B = T
    · have : A = 0 := by
        rw [hB, add_assoc, add_comm A, ← add_assoc, hTT, zero_add] at hs; exact hs
      exact ⟨t2 T T, by rw [hB, this, hz]; ring⟩
    exact ⟨2 * (t2 T A * t2 T B), by rw [t2_line h0 hT hA hB hs]; ring⟩
  by_cases hA : A = T
  · subst hA; exact one B D hs
  by_cases hB : B = T
  · subst hB
    obtain ⟨d, hd⟩ := one A D (by rw [← hs]; abel)
    exact ⟨d, by rw [← hd]; ring⟩
  by_cases hD : D = T
  · subst hD
    obtain ⟨d, hd⟩ := one A B (by rw [← hs]; abel)
    exact ⟨d, by rw [← hd]; ring⟩
  obtain ⟨d, hd⟩ := recip le_rfl hT h0 hs
  exact ⟨d, by unfold t2; rw [if_neg hA, if_neg hB, if_neg hD, hd]⟩

theorem tl2_spec {ζ : F} (hζ : IsPrimitiveRoot ζ 2) (hq : 2 ∣ Fintype.card F - 1) (hT : 2 • T = 0) (h0 : T ≠ 0)
    {A : E.toAffine.Point} (hA : A ≠ 0) :
    ∃ n : ℕ, tl2 E ((Fintype.card F - 1) / 2) (coords T) (coords A) = .some (n : ℤ) ∧ n < 2 ∧
      ζ ^ n = t2 T A ^ ((Fintype.card F - 1) / 2) := by
  have hζ1 : ζ = -1 := by
    have h1 := hζ.pow_eq_one
    have h2 := hζ.ne_one (by norm_num)
    have : (ζ - 1) * (ζ + 1) = 0 := by linear_combination h1
    rcases mul_eq_zero.mp this with h | h
    · exact absurd (sub_eq_zero.mp h) h2
    · exact eq_neg_of_add_eq_zero_left h
  have hchar : (2 : F) ≠ 0 := fun h => by
    refine hζ.ne_one (by norm_num) ?_
    rw [hζ1]
    linear_combination -h
  have ht := t2_ne hchar hT A
  have hsq : (t2 T A ^ ((Fintype.card F - 1) / 2)) ^ 2 = 1 := by
    rw [← pow_mul, Nat.div_mul_cancel hq, FiniteField.pow_card_sub_one_eq_one _ ht]
  have hval : tl2 E ((Fintype.card F - 1) / 2) (coords T) (coords A) =
      .some (if t2 T A ^ ((Fintype.card F - 1) / 2) = 1 then 0 else 1) := by
    have hTT : T + T = 0 := by rw [← two_smul ℕ]; exact hT
    cases T with
    | zero => exact absurd rfl h0
    | some xT yT hTn =>
      cases A with
      | zero => exact absurd rfl hA
      | some x y h =>
        change tl2 E _ (.pt xT yT) (.pt x y) = _
        unfold tl2
        simp only
        have hy := two_torsion hT
        suffices hsuf : (if x - xT = 0 then 4 * x * x + (4 * xT + (E.a₁ * E.a₁ + 4 * E.a₂)) * x +
            (xT * (4 * xT + (E.a₁ * E.a₁ + 4 * E.a₂)) + (2 * E.a₄ + E.a₁ * E.a₃) + (2 * E.a₄ + E.a₁ * E.a₃)) else x - xT) =
            t2 (some xT yT hTn) (some x y h) by
          rw [hsuf]
        unfold t2
        by_cases hx : x - xT = 0
        · rw [if_pos hx]
          obtain rfl := sub_eq_zero.mp hx
          have hyy : some x y h = some x yT hTn := by
            rcases WeierstrassCurve.Affine.Y_eq_of_X_eq h.1 hTn.1 rfl with e | e
            · subst e; rfl
            · have h1 := WeierstrassCurve.Affine.Point.add_of_Y_eq (h₁ := h) (h₂ := hTn) rfl e
              exact add_right_cancel (h1.trans hTT.symm)
          rw [if_pos hyy]
          simp only
          linear_combination (2 * E.a₁) * hy
        · rw [if_neg hx, if_neg, vl_two]
          intro e
          cases e
          exact hx (sub_self _)
  rw [hval]
  by_cases h1 : t2 T A ^ ((Fintype.card F - 1) / 2) = 1
  · rw [if_pos h1]
    exact ⟨0, rfl, by norm_num, by rw [h1, pow_zero]⟩
  · rw [if_neg h1]
    refine ⟨1, rfl, by norm_num, ?_⟩
    have : (t2 T A ^ ((Fintype.card F - 1) / 2) - 1) * (t2 T A ^ ((Fintype.card F - 1) / 2) + 1) = 0 := by
      linear_combination hsq
    rw [pow_one, hζ1]
    exact (eq_neg_of_add_eq_zero_left ((mul_eq_zero.mp this).resolve_left (sub_ne_zero.mpr h1))).symm

/-! ## one component -/

theorem comp_hom {ζ : F} (hζ : IsPrimitiveRoot ζ p) (hp : p.Prime) (hq : p ∣ Fintype.card F - 1) (hT : p • T = 0) (h0 : T ≠ 0) :
    ∃ (φ : E.toAffine.Point →+ ZMod p) (ans : E.toAffine.Point → ℕ), ans 0 = 0 ∧ (∀ A, ans A < p) ∧ (∀ A, φ A = (ans A : ZMod p)) ∧
      ∀ A, A ≠ 0 → tlComp E p ((Fintype.card F - 1) / p) (rootsOfUnity ζ p) (coords T) (coords A) = .some (ans A : ℤ) := by
  have hpos := hp.pos
  obtain ⟨χ, h1, h3, hspec⟩ : ∃ χ : E.toAffine.Point → F, χ 0 = 1 ∧ (∀ A B D, A + B + D = 0 → χ A * χ B * χ D = 1) ∧
      ∀ A, A ≠ 0 → ∃ n : ℕ, tlComp E p ((Fintype.card F - 1) / p) (rootsOfUnity ζ p) (coords T) (coords A) = .some (n : ℤ) ∧
        n < p ∧ ζ ^ n = χ A := by
    by_cases h2 : p = 2
    · subst h2
      refine ⟨fun A => t2 T A ^ ((Fintype.card F - 1) / 2), ?_, ?_, ?_⟩
      · simp only
        unfold t2
        rw [if_neg (Ne.symm h0), vl_zero, one_pow]
      · intro A B D hs
        simp only
        obtain ⟨d, hd⟩ := t2_triple h0 hT hs
        have hchar : (2 : F) ≠ 0 := fun h => by
          refine hζ.ne_one (by norm_num) ?_
          have : (ζ - 1) ^ 2 = 0 := by
            have h1 := hζ.pow_eq_one
            linear_combination h1 + (1 - ζ) * h
          exact sub_eq_zero.mp (pow_eq_zero_iff (by norm_num) |>.mp this)
        rw [← mul_pow, ← mul_pow, hd, pow_card hq]
        rintro rfl
        rw [zero_pow (by norm_num)] at hd
        exact mul_ne_zero (mul_ne_zero (t2_ne hchar hT A) (t2_ne hchar hT B)) (t2_ne hchar hT D) hd
      · intro A hA
        simp only [tlComp, if_true]
        exact tl2_spec hζ hq hT h0 hA
    · refine ⟨chi T p, chi_zero h0, fun A B D hs => chi_triple hp h2 hq hT h0 hs, fun A hA => ?_⟩
      simp only [tlComp, if_neg h2]
      exact tlOdd_spec hζ hp h2 hq hT h0 hA
  choose! a ha using hspec
  have hans : ∀ A, ζ ^ (if A = 0 then 0 else a A) = χ A := fun A => by
    by_cases hA : A = 0
    · rw [if_pos hA, hA, h1, pow_zero]
    · rw [if_neg hA]; exact (ha A hA).2.2
  obtain ⟨φ, hφ⟩ := exists_hom hζ hpos χ h1 h3 _ hans
  refine ⟨φ, _, if_pos rfl, fun A => ?_, hφ, fun A hA => ?_⟩
  · by_cases hA : A = 0
    · simp only [if_pos hA]; exact hpos
    · simp only [if_neg hA]; exact (ha A hA).2.1
  · simp only [if_neg hA]; exact (ha A hA).1

end

end Eclib.Ff
