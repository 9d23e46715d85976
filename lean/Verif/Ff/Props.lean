import Mathlib.Tactic.NormNum.Prime
import Verif.Ff.Eval

/-!
# C101, C102: function field elements, `weil_pol` and its evaluation
-/

set_option linter.unusedSectionVars false

namespace Eclib.Ff.Props

open Eclib.Ff
open Pmod (Pq coords)
open Polynomial

variable {F : Type} [Field F] [DecidableEq F] {E : WeierstrassCurve F}

/-! ## C101 -/

/-- C101: `ffmodq` computes in the coordinate ring `F[X,Y]/(Y² + a1XY + a3Y - X³ - a2X² - a4X - a6)`: sums, differences, products,
products with polynomials, and `evaluate` is a ring homomorphism at each point of the curve -/
theorem C101_ring (a b : FF F) (f : List F) {x y : F} (h : E.toAffine.Equation x y) :
    toCR E (add a b) = toCR E a + toCR E b ∧
    toCR E (sub a b) = toCR E a - toCR E b ∧
    toCR E (mul E a b) = toCR E a * toCR E b ∧
    toCR E (mulPoly a f) = toPoly f • toCR E a ∧
    evaluate a (.pt x y) = some (ev h (toCR E a)) :=
  ⟨toCR_add a b, toCR_sub a b, toCR_mul a b, toCR_mulPoly a f, evaluate_spec a h⟩

/-- C101: division by a vertical line is exact division -/
theorem C101_div (a : FF F) (A : E.toAffine.Point) (h : toCR E (vertical (coords A)) ∣ toCR E a) :
    toCR E (vertical (coords A)) * toCR E (divVertical a (coords A)) = toCR E a :=
  (divVertical_spec A (Ideal.span_singleton_le_span_singleton.mpr h)).symm

/-- C101: `vertical(P)`, `tangent(P)` and `chord(P,Q)` are functions with leading coefficient 1 at infinity and the divisors
`(P) + (-P) - 2O`, `2(P) + (-2P) - 3O` and `(P) + (Q) + (-P-Q) - 3O`, for all points of the curve, equal, opposite or infinite -/
theorem C101_lines (P Q : E.toAffine.Point) :
    Ideal.span {toCR E (vertical (coords P))} = I P * I (-P) ∧
    Ideal.span {toCR E (tangent E (coords P))} = I P ^ 2 * I (-(2 • P)) ∧
    Ideal.span {toCR E (chord E (coords P) (coords Q))} = I P * I Q * I (-(P + Q)) ∧
    Mon (2 * ord P) (toCR E (vertical (coords P))) ∧
    Mon (2 * ord P + ord (2 • P)) (toCR E (tangent E (coords P))) ∧
    Mon (ord P + ord Q + ord (P + Q)) (toCR E (chord E (coords P) (coords Q))) :=
  ⟨(I_neg_mul P).symm, by rw [tangent_ideal, sq, two_smul], chord_ideal P Q, Mon_vertical P,
    by rw [two_smul]; exact Mon_tangent P, Mon_chord P Q⟩

/-- C101: a function is determined by its divisor and its leading coefficient; it vanishes exactly at the points of the divisor -/
theorem C101_determined {z w : E.toAffine.CoordinateRing} {m n : ℕ} (hz : Mon m z) (hw : Mon n w) (l : List E.toAffine.Point)
    (h1 : Ideal.span {z} = (l.map I).prod) (h2 : Ideal.span {w} = (l.map I).prod) :
    z = w ∧ ∀ (x y : F) (h : E.toAffine.Nonsingular x y), ev h.1 z = 0 ↔ WeierstrassCurve.Affine.Point.some x y h ∈ l :=
  ⟨(hz.unique hw (h1.trans h2.symm)).1, fun _ _ h => ev_eq_zero h z l h1⟩

/-- C101: for `m ≥ 2` and `mT = 0`, `weil_pol(T,m)` has the divisor `m(T) - mO` and the leading coefficient 1, and the check in
`weil_pol` holds: `f1*h2² + f2*h1*h2 - h1² = -(-1)^m (X - x(T))^m` -/
theorem C101_weil_pol (T : E.toAffine.Point) (m : ℕ) (hm : 2 ≤ m) (hT : m • T = 0) :
    Ideal.span {toCR E (weilPol E (coords T) m)} = I T ^ m ∧
    Mon (m * ord T) (toCR E (weilPol E (coords T) m)) ∧
    (∀ xT yT, coords T = .pt xT yT →
      toPoly (f1 E) * toPoly (weilPol E (coords T) m).h2 ^ 2 +
        toPoly (f2 E) * toPoly (weilPol E (coords T) m).h1 * toPoly (weilPol E (coords T) m).h2 -
        toPoly (weilPol E (coords T) m).h1 ^ 2 = -(-1) ^ m * (X - C xT) ^ m) := by
  refine ⟨weilPol_ideal T m hm hT, weilPol_mon T m hm hT, fun xT yT hx => ?_⟩
  have h1 := norm_toCR (E := E) (weilPol E (coords T) m)
  have h2 := weilPol_norm T m hm
  unfold NInv at h2
  obtain ⟨l, rfl⟩ : ∃ l, m = l + 1 := ⟨m - 1, by omega⟩
  rw [Nat.add_sub_cancel] at h2
  rw [succ_nsmul, add_comm] at hT
  have hl := eq_neg_of_add_eq_zero_right hT
  have h0 : T ≠ 0 := by rintro rfl; cases hx
  have hV : V (coords (l • T)) = X - C xT := by
    rw [hl, Pmod.coords_neg, hx]; rfl
  have hV' : V (coords T) = X - C xT := by rw [hx]; rfl
  have ho : ord T = 1 := if_neg h0
  rw [hV, hV', hl, ord_neg, ho, mul_one, ← pow_succ] at h2
  linear_combination h1 - h2

/-- C101: without `mT = 0` the divisor is `(m-1)(T) + (-(m-1)T) - mO` -/
theorem C101_weil_pol_general (T : E.toAffine.Point) (m : ℕ) (hm : 2 ≤ m) :
    Ideal.span {toCR E (weilPol E (coords T) m)} = I T ^ (m - 1) * I (-((m - 1) • T)) :=
  (weilPol_inv T m hm).1

/-! ## C102 -/

/-- C102: for `T` of order `m` and `S` not a multiple of `T`, `evaluate_weil_pol_0` returns the value of `weil_pol` -/
theorem C102_evaluate_weil_pol (T S : E.toAffine.Point) (m : ℕ) (hm : 2 ≤ m) (hT : addOrderOf T = m) (hS : ∀ k : ℕ, S ≠ k • T) :
    evalWeil0 E (coords T) m (coords S) = evaluate (weilPol E (coords T) m) (coords S) := by
  subst hT
  cases S with
  | zero => exact absurd (zero_smul ℕ T).symm (hS 0)
  | some x y h => rw [evalWeil0_spec hm hS, evaluate_some]

theorem not_multiple {T S : E.toAffine.Point} {m : ℕ} (hT : addOrderOf T = m) (hS : m • S ≠ 0) (k : ℕ) : S ≠ k • T := by
  rintro rfl
  rw [smul_comm, ← hT, addOrderOf_nsmul_eq_zero, smul_zero] at hS
  exact hS rfl

/-- the value of `weil_pol` at a point different from `T` -/
theorem value_ne {T S : E.toAffine.Point} {m : ℕ} (hm : 2 ≤ m) (hT : m • T = 0) (h0 : S ≠ 0) (hS : S ≠ T) :
    ∃ v, evaluate (weilPol E (coords T) m) (coords S) = some v ∧ v ≠ 0 := by
  cases S with
  | zero => exact absurd rfl h0
  | some x y h =>
    refine ⟨_, evaluate_some _, fun hv => hS ?_⟩
    have := (ev_eq_zero h _ (List.replicate m T) (by rw [weilPol_ideal T m hm hT, List.map_replicate, List.prod_replicate])).mp hv
    exact List.eq_of_mem_replicate this

/-- C102: `evaluate_weil_pol(T,m,S)` for `T` of order `m ≥ 2`: when `mS` is not 0 it is the value of `weil_pol(T,m)` at `S`, which is
not 0; when `mS = 0` and `S` is not 0 it is the quotient of the values at `R+S` and `R`, neither of them 0, for the random point `R` -/
theorem C102_evaluate (T S R : E.toAffine.Point) (m : ℕ) (hm : 2 ≤ m) (hT : addOrderOf T = m) (hR : m • R ≠ 0) :
    (m • S ≠ 0 → ∃ v, evalWeil E (coords T) m (coords S) (coords R) = some v ∧
      evaluate (weilPol E (coords T) m) (coords S) = some v ∧ v ≠ 0) ∧
    (m • S = 0 → S ≠ 0 → ∃ v w, evaluate (weilPol E (coords T) m) (coords (R + S)) = some v ∧
      evaluate (weilPol E (coords T) m) (coords R) = some w ∧ v ≠ 0 ∧ w ≠ 0 ∧
      evalWeil E (coords T) m (coords S) (coords R) = some (v / w)) ∧
    (S = 0 → evalWeil E (coords T) m (coords S) (coords R) = some 1) := by
  have hmT : m • T = 0 := by rw [← hT]; exact addOrderOf_nsmul_eq_zero T
  have hT0 : T ≠ 0 := by rintro rfl; rw [addOrderOf_zero] at hT; omega
  have hmul : ∀ A : E.toAffine.Point, Pq.mul E m (coords A) = coords (m • A) := fun A => by
    rw [← Pmod.coords_mul, natCast_zsmul]
  have val : ∀ A : E.toAffine.Point, m • A ≠ 0 → ∃ v, evalWeil0 E (coords T) m (coords A) = some v ∧
      evaluate (weilPol E (coords T) m) (coords A) = some v ∧ v ≠ 0 := fun A hA => by
    have hk := not_multiple hT hA
    obtain ⟨v, hv, h0⟩ := value_ne (S := A) hm hmT (by rintro rfl; simp at hA) (by simpa using hk 1)
    exact ⟨v, by rw [C102_evaluate_weil_pol T A m hm hT hk, hv], hv, h0⟩
  refine ⟨fun hS => ?_, fun hS h0 => ?_, fun hS => ?_⟩
  · have hS0 : S ≠ 0 := by rintro rfl; simp at hS
    unfold evalWeil
    rw [if_neg (by rw [coords_eq_oo, coords_eq_oo]; tauto), if_pos (by rw [hmul, Ne, coords_eq_oo]; exact hS)]
    exact val S hS
  · obtain ⟨v, e1, e2, e3⟩ := val (R + S) (by rw [smul_add, hS, add_zero]; exact hR)
    obtain ⟨w, e4, e5, e6⟩ := val R hR
    refine ⟨v, w, e2, e5, e3, e6, ?_⟩
    unfold evalWeil
    rw [if_neg (by rw [coords_eq_oo, coords_eq_oo]; tauto), if_neg (by rw [hmul, Ne, coords_eq_oo]; exact fun h => h hS),
      ← Pmod.coords_add, e1, e4]
    rfl
  · unfold evalWeil
    rw [if_pos (Or.inr (by rw [hS]; rfl))]

/-! ## examples -/

instance : Fact (Nat.Prime 7) := ⟨by norm_num⟩

/-- `y² = x³ + x` over the field of 7 elements, a cyclic group of order 8 -/
def e8 : WeierstrassCurve (ZMod 7) := ⟨0, 0, 0, 1, 0⟩

theorem e8_ns {x y : ZMod 7} (h : Pq.onCurve e8 (.pt x y) = true) : e8.toAffine.Nonsingular x y := by
  have h1 := (Pmod.onCurve_iff x y).mp h
  exact (WeierstrassCurve.Affine.equation_iff_nonsingular_of_Δ_ne_zero (by
    change e8.Δ ≠ 0
    simp only [WeierstrassCurve.Δ, WeierstrassCurve.b₂, WeierstrassCurve.b₄, WeierstrassCurve.b₆, WeierstrassCurve.b₈, e8]
    decide)).mp h1

/-- a point of `e8` -/
def pt8 (x y : ZMod 7) (h : Pq.onCurve e8 (.pt x y) = true) : e8.toAffine.Point := .some x y (e8_ns h)

/-- points of order 2, 4 and 8 -/
def T2 : e8.toAffine.Point := pt8 0 0 (by decide +kernel)
def T4 : e8.toAffine.Point := pt8 1 3 (by decide +kernel)
def S8 : e8.toAffine.Point := pt8 3 3 (by decide +kernel)

/-- `millerLoop` with fuel -/
def millerFuel (E : WeierstrassCurve F) (S : Pq F) : ℕ → ℕ → MSt F → Option F
  | 0, _, _ => none
  | n + 1, k, s =>
    if k = 0 then some s.a
    else do
      let s ← if k % 2 = 1 then addStep E S s else some s
      let k' := if k % 2 = 1 then k - 1 else k
      if k' = 0 then some s.a
      else
        let s ← dblStep E S s
        millerFuel E S n (k' / 2) s

theorem millerFuel_eq (S : Pq F) (n : ℕ) : ∀ (k : ℕ) (s : MSt F) (a : F), millerFuel E S n k s = some a →
    millerLoop E S k s = some a := by
  induction n with
  | zero => intro k s a h; cases h
  | succ n ih =>
    intro k s a h
    rw [millerLoop]
    rw [millerFuel] at h
    by_cases h0 : k = 0
    · rw [if_pos h0] at h ⊢; exact h
    rw [if_neg h0] at h ⊢
    by_cases hodd : k % 2 = 1
    · simp only [if_pos hodd] at h ⊢
      obtain ⟨s1, e1, h⟩ := Option.bind_eq_some_iff.mp h
      refine Option.bind_eq_some_iff.mpr ⟨s1, e1, ?_⟩
      by_cases h1 : k - 1 = 0
      · rw [if_pos h1] at h ⊢; exact h
      rw [if_neg h1] at h ⊢
      obtain ⟨s2, e2, h⟩ := Option.bind_eq_some_iff.mp h
      exact Option.bind_eq_some_iff.mpr ⟨s2, e2, ih _ _ _ h⟩
    · simp only [if_neg hodd, if_neg h0] at h ⊢
      obtain ⟨s1, e1, h⟩ := Option.bind_eq_some_iff.mp h
      refine Option.bind_eq_some_iff.mpr ⟨s1, e1, ?_⟩
      obtain ⟨s2, e2, h⟩ := Option.bind_eq_some_iff.mp h
      exact Option.bind_eq_some_iff.mpr ⟨s2, e2, ih _ _ _ h⟩

theorem nsmul_coords (n : ℕ) (A : e8.toAffine.Point) : coords (n • A) = Pq.mul e8 n (coords A) := by
  rw [← Pmod.coords_mul, natCast_zsmul]

theorem S8_order (m : ℕ) (h : Pq.mul e8 m (.pt 3 3) ≠ .oo) : m • S8 ≠ 0 := by
  rw [Ne, ← coords_eq_oo, nsmul_coords]
  exact h

theorem T4_order : addOrderOf T4 = 4 := by
  have h1 : ¬ 2 ^ 1 • T4 = 0 := by
    rw [← coords_eq_oo, nsmul_coords]
    change ¬ Pq.mul e8 2 (.pt 1 3) = .oo
    decide +kernel
  have h2 : 2 ^ (1 + 1) • T4 = 0 := by
    rw [← coords_eq_oo, nsmul_coords]
    change Pq.mul e8 4 (.pt 1 3) = .oo
    decide +kernel
  have : Fact (Nat.Prime 2) := ⟨Nat.prime_two⟩
  rw [addOrderOf_eq_prime_pow h1 h2]
  norm_num

/-- the hypotheses of C101 and C102 hold for the point `(1,3)` of order 4 and the point `(3,3)` of order 8 on `y² = x³ + x` over the
field of 7 elements, and the value is 5 -/
example : 4 • T4 = 0 ∧ addOrderOf T4 = 4 ∧ 4 • S8 ≠ 0 ∧ evaluate (weilPol e8 (coords T4) 4) (coords S8) = some 5 ∧
    evalWeil0 e8 (coords T4) 4 (coords S8) = some 5 := by
  refine ⟨by rw [← T4_order]; exact addOrderOf_nsmul_eq_zero _, T4_order, S8_order 4 (by decide +kernel), ?_, ?_⟩
  · change evaluate (weilPol e8 (.pt 1 3) 4) (.pt 3 3) = some 5
    decide +kernel
  · unfold evalWeil0
    rw [if_neg (by decide)]
    apply millerFuel_eq _ 5
    change millerFuel e8 (.pt 3 3) 5 4 ⟨.oo, 1, .pt 1 3, 1⟩ = some 5
    decide +kernel

/-- C102: that `m` is the order of `T`, not only `mT = 0`, is needed: the test `kT.is_zero()`, meant for the beginning, then holds
again later and the value found so far is lost.  For `T = (0,0)` of order 2, `m = 6` and `S = (3,3)` with `6S` not 0,
`evaluate_weil_pol` returns 2, the value of `weil_pol(T,6)` is 6 -/
theorem C102_order_needed : 6 • T2 = 0 ∧ 6 • S8 ≠ 0 ∧ evaluate (weilPol e8 (coords T2) 6) (coords S8) = some 6 ∧
    ∀ R, evalWeil e8 (coords T2) 6 (coords S8) R = some 2 := by
  refine ⟨?_, S8_order 6 (by decide +kernel), ?_, fun R => ?_⟩
  · rw [← coords_eq_oo, nsmul_coords]
    change Pq.mul e8 6 (.pt 0 0) = .oo
    decide +kernel
  · change evaluate (weilPol e8 (.pt 0 0) 6) (.pt 3 3) = some 6
    decide +kernel
  · change evalWeil e8 (.pt 0 0) 6 (.pt 3 3) R = some 2
    unfold evalWeil
    rw [if_neg (by decide), if_pos (by decide +kernel)]
    unfold evalWeil0
    rw [if_neg (by decide)]
    apply millerFuel_eq _ 5
    decide +kernel

end Eclib.Ff.Props
