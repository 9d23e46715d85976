import Mathlib.Analysis.SpecificLimits.Basic
import Mathlib.NumberTheory.Height.Northcott
import Mathlib.LinearAlgebra.Matrix.ToLinearEquiv
import Verif.Mw.Gram

/-!
# The canonical height attached to an approximate quadratic form

For C119: a function on an abelian group that satisfies the parallelogram law up to a constant is at
bounded distance from exactly one quadratic form; if bounded values leave finitely many elements, the
form is positive definite modulo torsion, also over the real numbers.
-/

namespace Eclib.Mw

open Filter Topology

set_option linter.unusedSectionVars false

variable {A : Type} [AddCommGroup A]

/-- Tate's limit -/
theorem exists_canonical {h : A → ℝ} {C : ℝ} (hC : ∀ x y, |h (x + y) + h (x - y) - 2 * (h x + h y)| ≤ C) :
    ∃ q : A → ℝ, (∀ x y, q (x + y) + q (x - y) = 2 * (q x + q y)) ∧ ∃ D, ∀ x, |q x - h x| ≤ D := by
  have h2 : ∀ x, |h (2 • x) - 4 * h x| ≤ C + |h 0| := by
    intro x
    have h1 := hC x x
    rw [sub_self, ← two_nsmul] at h1
    rw [abs_le] at h1 ⊢
    have h3 := abs_le.1 (le_refl |h 0|)
    constructor <;> linarith [h1.1, h1.2, h3.1, h3.2]
  set D := C + |h 0| with hD
  let f : A → ℕ → ℝ := fun x n => h (2 ^ n • x) / 4 ^ n
  have hf : ∀ x n, dist (f x n) (f x (n + 1)) ≤ D / 4 * (1 / 4) ^ n := by
    intro x n
    have h1 := h2 (2 ^ n • x)
    rw [← mul_nsmul', ← pow_succ'] at h1
    rw [Real.dist_eq, abs_sub_comm]
    have e : f x (n + 1) - f x n = (h (2 ^ (n + 1) • x) - 4 * h (2 ^ n • x)) / 4 ^ (n + 1) := by
      simp only [f]
      field_simp
      ring
    rw [e, abs_div, abs_of_pos (by positivity : (0 : ℝ) < 4 ^ (n + 1))]
    calc |h (2 ^ (n + 1) • x) - 4 * h (2 ^ n • x)| / 4 ^ (n + 1) ≤ D / 4 ^ (n + 1) := by gcongr
      _ = D / 4 * (1 / 4) ^ n := by rw [pow_succ, one_div, inv_pow]; field_simp
  have hlim : ∀ x, ∃ a, Tendsto (f x) atTop (𝓝 a) := fun x =>
    cauchySeq_tendsto_of_complete (cauchySeq_of_le_geometric (1 / 4) (D / 4) (by norm_num) (hf x))
  choose q hq using hlim
  refine ⟨q, fun x y => ?_, D / 4 / (1 - 1 / 4), fun x => ?_⟩
  · have t1 : Tendsto (fun n => f (x + y) n + f (x - y) n - 2 * (f x n + f y n)) atTop
        (𝓝 (q (x + y) + q (x - y) - 2 * (q x + q y))) :=
      ((hq _).add (hq _)).sub (((hq _).add (hq _)).const_mul 2)
    have t2 : Tendsto (fun n => f (x + y) n + f (x - y) n - 2 * (f x n + f y n)) atTop (𝓝 0) := by
      refine squeeze_zero_norm (a := fun n => C * (1 / 4) ^ n) (fun n => ?_) ?_
      · have e : f (x + y) n + f (x - y) n - 2 * (f x n + f y n) =
            (h (2 ^ n • x + 2 ^ n • y) + h (2 ^ n • x - 2 ^ n • y) - 2 * (h (2 ^ n • x) + h (2 ^ n • y))) / 4 ^ n := by
          simp only [f, nsmul_add, nsmul_sub]
          field_simp
        rw [e, Real.norm_eq_abs, abs_div, abs_of_pos (by positivity : (0 : ℝ) < 4 ^ n)]
        calc _ ≤ C / 4 ^ n := by gcongr; exact hC _ _
          _ = C * (1 / 4) ^ n := by rw [one_div, inv_pow]; field_simp
      · have := (tendsto_pow_atTop_nhds_zero_of_lt_one (by norm_num : (0 : ℝ) ≤ 1 / 4) (by norm_num)).const_mul C
        rwa [mul_zero] at this
    linarith [tendsto_nhds_unique t1 t2]
  · have := dist_le_of_le_geometric_of_tendsto₀ (1 / 4) (D / 4) (by norm_num) (hf x) (hq x)
    rw [Real.dist_eq, abs_sub_comm] at this
    simpa [f] using this

section quad
variable {q : A → ℝ} (hq : ∀ x y, q (x + y) + q (x - y) = 2 * (q x + q y))
include hq

theorem quad_zero : q 0 = 0 := by
  have := hq 0 0
  rw [add_zero, sub_zero] at this
  linarith

theorem quad_neg (x : A) : q (-x) = q x := by
  have := hq 0 x
  rw [zero_add, zero_sub, quad_zero hq] at this
  linarith

theorem quad_three (x y z : A) : q (x + y + z) = q (x + y) + q (x + z) + q (y + z) - q x - q y - q z := by
  have h1 := hq (x + z) y
  have h2 := hq x (z - y)
  have h3 := hq (x + y) z
  have h4 := hq z y
  rw [show x + z + y = x + y + z by abel, show x + z - y = x + (z - y) by abel] at h1
  rw [show x - (z - y) = x + y - z by abel] at h2
  rw [add_comm z y] at h4
  linarith

/-- the bilinear form -/
noncomputable def bil : A →+ A →+ ℝ :=
  AddMonoidHom.mk' (fun x => AddMonoidHom.mk' (fun y => (q (x + y) - q x - q y) / 2) (by
    intro y z
    have := quad_three hq x y z
    rw [← add_assoc]
    linarith)) (by
    intro x y
    ext z
    have := quad_three hq x y z
    show (q (x + y + z) - q (x + y) - q z) / 2 = (q (x + z) - q x - q z) / 2 + (q (y + z) - q y - q z) / 2
    linarith)

theorem bil_apply (x y : A) : bil hq x y = (q (x + y) - q x - q y) / 2 := rfl

theorem bil_self (x : A) : bil hq x x = q x := by
  have := hq x x
  rw [sub_self, quad_zero hq] at this
  rw [bil_apply]
  linarith

theorem bil_symm (x y : A) : bil hq x y = bil hq y x := by
  rw [bil_apply, bil_apply, add_comm]
  ring

theorem quad_zsmul (n : ℤ) (x : A) : q (n • x) = n ^ 2 * q x := by
  rw [← bil_self hq (n • x), ← bil_self hq x, map_zsmul, map_zsmul, AddMonoidHom.zsmul_apply, zsmul_eq_mul, zsmul_eq_mul]
  ring

end quad

/-- a quadratic form at bounded distance from 0 is 0, so the canonical height is unique -/
theorem canonical_unique {q q' h : A → ℝ} (hq : ∀ x y, q (x + y) + q (x - y) = 2 * (q x + q y))
    (hq' : ∀ x y, q' (x + y) + q' (x - y) = 2 * (q' x + q' y)) (hb : ∃ D, ∀ x, |q x - h x| ≤ D)
    (hb' : ∃ D, ∀ x, |q' x - h x| ≤ D) : q = q' := by
  obtain ⟨D, hD⟩ := hb
  obtain ⟨D', hD'⟩ := hb'
  funext x
  by_contra hne
  have hpos : 0 < |q x - q' x| := abs_pos.2 (sub_ne_zero.2 hne)
  obtain ⟨n, hn⟩ := exists_nat_gt ((D + D') / |q x - q' x|)
  rw [div_lt_iff₀ hpos] at hn
  have h1 := hD ((n : ℤ) • x)
  have h2 := hD' ((n : ℤ) • x)
  rw [quad_zsmul hq] at h1
  rw [quad_zsmul hq'] at h2
  have h3 : |(((n : ℤ) : ℝ) ^ 2 * q x) - ((n : ℤ) : ℝ) ^ 2 * q' x| ≤ D + D' := by
    rw [abs_le] at h1 h2 ⊢
    constructor <;> linarith [h1.1, h1.2, h2.1, h2.2]
  rw [← mul_sub, abs_mul, abs_of_nonneg (by positivity), Int.cast_natCast] at h3
  have h0 : (0 : ℝ) ≤ n := Nat.cast_nonneg n
  have h4 : (n : ℝ) ≤ n ^ 2 := by
    rcases Nat.eq_zero_or_pos n with h | h
    · rw [h]; norm_num
    · have : (1 : ℝ) ≤ n := by exact_mod_cast h
      nlinarith
  have := mul_le_mul_of_nonneg_right h4 hpos.le
  linarith

section definite
variable {q h : A → ℝ} (hq : ∀ x y, q (x + y) + q (x - y) = 2 * (q x + q y)) (h0 : ∀ x, 0 ≤ h x)
  {D : ℝ} (hD : ∀ x, |q x - h x| ≤ D)

include hq h0 hD in
theorem quad_nonneg (x : A) : 0 ≤ q x := by
  by_contra hlt
  push Not at hlt
  obtain ⟨n, hn⟩ := exists_nat_gt (D / (-q x))
  rw [div_lt_iff₀ (by linarith)] at hn
  have h1 := hD ((n : ℤ) • x)
  rw [quad_zsmul hq, Int.cast_natCast] at h1
  have h2 := h0 ((n : ℤ) • x)
  rw [abs_le] at h1
  have h4 : (n : ℝ) ≤ n ^ 2 := by
    rcases Nat.eq_zero_or_pos n with h | h
    · rw [h]; norm_num
    · have : (1 : ℝ) ≤ n := by exact_mod_cast h
      nlinarith
  nlinarith [h1.1]

include hD in
theorem quad_finite [Northcott h] (b : ℝ) : {x | q x ≤ b}.Finite := by
  refine (Northcott.finite_le (h := h) (b + D)).subset fun x hx => ?_
  have h1 := abs_le.1 (hD x)
  have h2 : q x ≤ b := hx
  show h x ≤ b + D
  linarith [h1.1]

include hq hD in
theorem quad_tors [Northcott h] (x : A) : q x = 0 ↔ IsOfFinAddOrder x := by
  constructor
  · intro hx
    by_contra hne
    rw [← injective_nsmul_iff_not_isOfFinAddOrder] at hne
    refine Set.infinite_range_of_injective hne ((quad_finite hD 0).subset ?_)
    rintro _ ⟨n, rfl⟩
    show q (n • x) ≤ 0
    rw [← natCast_zsmul, quad_zsmul hq, hx, mul_zero]
  · intro hx
    rw [← bil_self hq]
    exact tors_left _ hx _

include hq hD in
/-- the form is not degenerate: independent elements have a regular matrix -/
theorem quad_nondeg [Northcott h] {n : ℕ} {x : ℕ → A} (hx : Indep n x) : (gram (bil hq) n x).det ≠ 0 := by
  intro hdet
  obtain ⟨v, hv, hGv⟩ := Matrix.exists_mulVec_eq_zero_iff.2 hdet
  set G := gram (bil hq) n x with hG
  obtain ⟨i0, hi0⟩ : ∃ i, v i ≠ 0 := by
    by_contra hc
    push Not at hc
    exact hv (funext hc)
  have hpos := abs_pos.2 hi0
  obtain ⟨M, hM⟩ := exists_nat_gt (1 / |v i0|)
  rw [div_lt_iff₀ hpos] at hM
  let w : ℕ → Fin n → ℤ := fun k i => round ((M * k : ℝ) * v i)
  have hw : ∀ k i, |((w k i : ℤ) : ℝ) - (M * k : ℝ) * v i| ≤ 1 / 2 := by
    intro k i
    rw [abs_sub_comm]
    exact abs_sub_round _
  have hinj : Function.Injective fun k => ∑ i, w k i • x i := by
    intro k k' hk
    have hk : ∑ i, w k i • x i = ∑ i, w k' i • x i := hk
    have h1 : ∑ i, (w k i - w k' i) • x i = 0 := by
      rw [← sub_eq_zero.2 hk, ← Finset.sum_sub_distrib]
      exact Finset.sum_congr rfl fun i _ => by rw [sub_zsmul, sub_eq_add_neg]
    have h2 := congrFun (hx (fun i => w k i - w k' i) (by rw [h1]; exact IsOfFinAddOrder.zero)) i0
    have h2 : (w k i0 : ℝ) = w k' i0 := by
      have : w k i0 = w k' i0 := sub_eq_zero.1 h2
      rw [this]
    have h3 := abs_le.1 (hw k i0)
    have h4 := abs_le.1 (hw k' i0)
    by_contra hne
    have h5 : (1 : ℝ) ≤ |(k : ℝ) - k'| := by
      have : (1 : ℤ) ≤ |(k : ℤ) - k'| := Int.one_le_abs (sub_ne_zero.2 (by exact_mod_cast hne))
      exact_mod_cast this
    have h6 : |(M : ℝ) * (k - k') * v i0| ≤ 1 := by
      rw [abs_le]
      constructor <;> linarith [h3.1, h3.2, h4.1, h4.2]
    rw [abs_mul, abs_mul, abs_of_nonneg (Nat.cast_nonneg M : (0 : ℝ) ≤ M)] at h6
    have h7 : (M : ℝ) * |v i0| * 1 ≤ (M : ℝ) * |v i0| * |(k : ℝ) - k'| := by gcongr
    nlinarith
  refine Set.infinite_range_of_injective hinj ((quad_finite (q := q) hD (∑ i, ∑ j, |G i j|)).subset ?_)
  rintro _ ⟨k, rfl⟩
  show q (∑ i, w k i • x i) ≤ _
  have e1 : q (∑ i, w k i • x i) = ∑ i, ∑ j, (w k i : ℝ) * (w k j * G i j) := by
    rw [← bil_self hq, map_sum]
    simp only [AddMonoidHom.finsetSum_apply, map_sum, map_zsmul, AddMonoidHom.zsmul_apply, zsmul_eq_mul]
    refine Finset.sum_congr rfl fun i _ => ?_
    rw [Finset.mul_sum]
    refine Finset.sum_congr rfl fun j _ => ?_
    rw [bil_symm hq]
    rfl
  have hsymm : ∀ i j, G i j = G j i := fun i j => bil_symm hq _ _
  have hrow : ∀ i, ∑ j, G i j * v j = 0 := fun i => congrFun hGv i
  have e2 : ∑ i, ∑ j, (w k i : ℝ) * (w k j * G i j) =
      ∑ i, ∑ j, ((w k i : ℝ) - M * k * v i) * ((w k j - M * k * v j) * G i j) := by
    have r1 : ∀ i, ∑ j, (w k i : ℝ) * (w k j * G i j) = ∑ j, (w k i : ℝ) * ((w k j - M * k * v j) * G i j) := by
      intro i
      rw [← sub_eq_zero, ← Finset.sum_sub_distrib]
      calc _ = ∑ j, (w k i : ℝ) * (M * k) * (G i j * v j) := Finset.sum_congr rfl fun j _ => by ring
        _ = 0 := by rw [← Finset.mul_sum, hrow, mul_zero]
    rw [Finset.sum_congr rfl fun i _ => r1 i, Finset.sum_comm, Finset.sum_comm (f := fun i j => ((w k i : ℝ) - M * k * v i) * ((w k j - M * k * v j) * G i j))]
    refine Finset.sum_congr rfl fun j _ => ?_
    rw [← sub_eq_zero, ← Finset.sum_sub_distrib]
    calc _ = ∑ i, ((w k j : ℝ) - M * k * v j) * (M * k) * (G j i * v i) := Finset.sum_congr rfl fun i _ => by rw [hsymm j i]; ring
      _ = 0 := by rw [← Finset.mul_sum, hrow, mul_zero]
  rw [e1, e2]
  refine Finset.sum_le_sum fun i _ => Finset.sum_le_sum fun j _ => ?_
  refine (le_abs_self _).trans ?_
  rw [abs_mul, abs_mul]
  have a1 : |(w k i : ℝ) - M * k * v i| ≤ 1 := (hw k i).trans (by norm_num)
  have a2 : |(w k j : ℝ) - M * k * v j| ≤ 1 := (hw k j).trans (by norm_num)
  have a3 := abs_nonneg (G i j)
  calc _ ≤ 1 * (1 * |G i j|) := by gcongr
    _ = |G i j| := by ring

end definite

end Eclib.Mw
