import Mathlib.FieldTheory.Finite.Basic
import Mathlib.NumberTheory.LegendreSymbol.QuadraticChar.Basic
import Verif.Hasse.Height

/-!
# The height of Q - P₀

`k` is a finite field of odd characteristic with `q` elements, `f = x³ + a₂x² + a₄x + a₆` without
double roots.  On the twist `f(t)Y² = f(X)` there are the points `P₀ = (t, 1)` and
`Q = (t^q, f(t)^((q-1)/2))`.  The height of `Q - P₀` is the number of points of `y² = f(x)`.
-/

namespace Eclib.Hasse

open WeierstrassCurve Polynomial

set_option linter.unusedSectionVars false

variable {k : Type} [Field k] [Fintype k] [DecidableEq k]

/-- the product of the linear factors of a set -/
noncomputable def lin (T : Finset k) : k[X] := ∏ α ∈ T, (X - C α)

theorem lin_dvd (T : Finset k) {p : k[X]} (h : ∀ α ∈ T, p.eval α = 0) : lin T ∣ p :=
  Finset.prod_dvd_of_coprime (fun _ _ _ _ hne => pairwise_coprime_X_sub_C Function.injective_id hne)
    (fun α hα => dvd_iff_isRoot.2 (h α hα))

theorem lin_coprime (T : Finset k) {p : k[X]} (h : ∀ α ∈ T, p.eval α ≠ 0) : IsCoprime p (lin T) :=
  IsCoprime.prod_right fun α hα => ((irreducible_X_sub_C α).coprime_iff_not_dvd.2 fun hd =>
    h α hα (dvd_iff_isRoot.1 hd)).symm

theorem lin_monic (T : Finset k) : (lin T).Monic := monic_prod_of_monic _ _ fun α _ => monic_X_sub_C α

theorem lin_natDegree (T : Finset k) : (lin T).natDegree = T.card := by
  rw [lin, natDegree_prod_of_monic _ _ fun α _ => monic_X_sub_C α]
  simp

theorem lin_eval (T : Finset k) {α : k} (h : α ∈ T) : (lin T).eval α = 0 := by
  rw [lin, eval_prod]
  exact Finset.prod_eq_zero h (by simp)

theorem lin_univ : lin (Finset.univ : Finset k) = X ^ Fintype.card k - X := by
  have h1 : 1 < Fintype.card k := Fintype.one_lt_card
  have hm : (X ^ Fintype.card k - X : k[X]).Monic :=
    monic_X_pow_sub (by rw [degree_X]; exact_mod_cast h1)
  have := prod_multiset_X_sub_C_of_monic_of_roots_card_eq hm (by
    rw [FiniteField.roots_X_pow_card_sub_X, FiniteField.X_pow_card_sub_X_natDegree_eq k h1]; rfl)
  rw [FiniteField.roots_X_pow_card_sub_X] at this
  exact this

/-- the right hand side of the equation -/
noncomputable def rhs (E : WeierstrassCurve k) : k[X] := X ^ 3 + C E.a₂ * X ^ 2 + C E.a₄ * X + C E.a₆

theorem rhs_eval (E : WeierstrassCurve k) (α : k) :
    (rhs E).eval α = α ^ 3 + E.a₂ * α ^ 2 + E.a₄ * α + E.a₆ := by simp [rhs]

theorem rhs_degree (E : WeierstrassCurve k) : (rhs E).natDegree = 3 := by
  unfold rhs; compute_degree!

theorem rhs_ne_zero (E : WeierstrassCurve k) : rhs E ≠ 0 := fun h => by
  have := rhs_degree E
  rw [h, natDegree_zero] at this
  omega

/-- `f(t)^q = f(t^q)` -/
theorem rhs_pow (E : WeierstrassCurve k) : rhs E ^ Fintype.card k =
    X ^ (3 * Fintype.card k) + C E.a₂ * X ^ (2 * Fintype.card k) + C E.a₄ * X ^ Fintype.card k + C E.a₆ := by
  rw [← FiniteField.expand_card]
  simp only [rhs, map_add, map_mul, map_pow, expand_C, expand_X]
  rw [← pow_mul, ← pow_mul, mul_comm, mul_comm (Fintype.card k) 2]

/-- zeros, non-zero square values and non-square values of `f` -/
def zs (E : WeierstrassCurve k) : Finset k :=
  Finset.univ.filter fun α => α ^ 3 + E.a₂ * α ^ 2 + E.a₄ * α + E.a₆ = 0
/-- non-zero square values -/
noncomputable def ss (E : WeierstrassCurve k) : Finset k := by
  classical exact Finset.univ.filter fun α => α ^ 3 + E.a₂ * α ^ 2 + E.a₄ * α + E.a₆ ≠ 0 ∧
    IsSquare (α ^ 3 + E.a₂ * α ^ 2 + E.a₄ * α + E.a₆)
/-- non-square values -/
noncomputable def ns (E : WeierstrassCurve k) : Finset k := by
  classical exact Finset.univ.filter fun α => ¬ IsSquare (α ^ 3 + E.a₂ * α ^ 2 + E.a₄ * α + E.a₆)

theorem mem_zs {E : WeierstrassCurve k} {α : k} : α ∈ zs E ↔ (rhs E).eval α = 0 := by
  simp [zs, rhs_eval]

theorem mem_ss {E : WeierstrassCurve k} {α : k} :
    α ∈ ss E ↔ (rhs E).eval α ≠ 0 ∧ IsSquare ((rhs E).eval α) := by
  simp [ss, rhs_eval]

theorem mem_ns {E : WeierstrassCurve k} {α : k} : α ∈ ns E ↔ ¬ IsSquare ((rhs E).eval α) := by
  simp [ns, rhs_eval]

theorem disj1 (E : WeierstrassCurve k) : Disjoint (zs E) (ns E) := by
  rw [Finset.disjoint_left]
  intro α h1 h2
  rw [mem_zs] at h1
  rw [mem_ns, h1] at h2
  exact h2 ⟨0, by simp⟩

theorem disj2 (E : WeierstrassCurve k) : Disjoint ((zs E).disjUnion (ns E) (disj1 E)) (ss E) := by
  rw [Finset.disjoint_left]
  intro α h1 h2
  rw [mem_ss] at h2
  rw [Finset.mem_disjUnion, mem_zs, mem_ns] at h1
  exact h1.elim h2.1 (fun h => h h2.2)

theorem union_univ (E : WeierstrassCurve k) :
    ((zs E).disjUnion (ns E) (disj1 E)).disjUnion (ss E) (disj2 E) = Finset.univ := by
  ext α
  simp only [Finset.mem_disjUnion, Finset.mem_univ, iff_true, mem_zs, mem_ns, mem_ss]
  tauto

theorem lin_split (E : WeierstrassCurve k) :
    lin (zs E) * lin (ns E) * lin (ss E) = X ^ Fintype.card k - X := by
  rw [← lin_univ, ← union_univ E, lin, lin, lin, lin, Finset.prod_disjUnion, Finset.prod_disjUnion]

theorem card_split (E : WeierstrassCurve k) :
    (zs E).card + (ns E).card + (ss E).card = Fintype.card k := by
  rw [← Finset.card_univ, ← union_univ E, Finset.card_disjUnion, Finset.card_disjUnion]

/-- the numerator of the X-coordinate of `Q - P₀` before cancelling -/
noncomputable def num0 (E : WeierstrassCurve k) : k[X] :=
  rhs E * (rhs E ^ (Fintype.card k / 2) + 1) ^ 2 -
    (C E.a₂ + X ^ Fintype.card k + X) * (X ^ Fintype.card k - X) ^ 2

theorem num0_degree (hk : ringChar k ≠ 2) (E : WeierstrassCurve k) :
    (num0 E).natDegree = 2 * Fintype.card k + 1 := by
  have hodd := FiniteField.odd_card_of_char_ne_two hk
  have h1 : 1 < Fintype.card k := Fintype.one_lt_card
  have hpow := rhs_pow E
  obtain ⟨q, hq⟩ : ∃ q, q = Fintype.card k := ⟨_, rfl⟩
  unfold num0
  rw [← hq] at hodd h1 hpow ⊢
  obtain ⟨m, hm⟩ : ∃ m, m = q / 2 := ⟨_, rfl⟩
  have hqm : q = 2 * m + 1 := by omega
  rw [← hm]
  have e : rhs E * (rhs E ^ m + 1) ^ 2 - (C E.a₂ + X ^ q + X) * (X ^ q - X) ^ 2 =
      X ^ (2 * q + 1) + (X ^ (q + 2) + 2 * C E.a₂ * X ^ (q + 1) + C E.a₄ * X ^ q + C E.a₆ +
        2 * rhs E ^ (m + 1) + rhs E - C E.a₂ * X ^ 2 - X ^ 3) := by
    have e1 : rhs E * (rhs E ^ m + 1) ^ 2 = rhs E ^ q + 2 * rhs E ^ (m + 1) + rhs E := by
      rw [hqm]; ring
    rw [e1, hpow]
    ring
  rw [e]
  have hr : (X ^ (q + 2) + 2 * C E.a₂ * X ^ (q + 1) + C E.a₄ * X ^ q + C E.a₆ +
        2 * rhs E ^ (m + 1) + rhs E - C E.a₂ * X ^ 2 - X ^ 3 : k[X]).natDegree ≤ 2 * q := by
    have d1 : (rhs E ^ (m + 1)).natDegree ≤ 2 * q := by
      refine natDegree_pow_le.trans ?_
      rw [rhs_degree]; omega
    have d2 : (rhs E).natDegree ≤ 2 * q := by rw [rhs_degree]; omega
    have hX : ∀ n, n ≤ 2 * q → (X ^ n : k[X]).natDegree ≤ 2 * q := fun n h => by
      rw [natDegree_X_pow]; exact h
    have hCX : ∀ (c : k) n, n ≤ 2 * q → (C c * X ^ n : k[X]).natDegree ≤ 2 * q := fun c n h =>
      (natDegree_C_mul_le _ _).trans (hX n h)
    have d3 : (2 * rhs E ^ (m + 1)).natDegree ≤ 2 * q := by
      have : (2 : k[X]) = C 2 := by rw [C_ofNat]
      rw [this]; exact (natDegree_C_mul_le _ _).trans d1
    have d4 : (2 * C E.a₂ * X ^ (q + 1) : k[X]).natDegree ≤ 2 * q := by
      have : (2 : k[X]) * C E.a₂ = C (2 * E.a₂) := by rw [C_mul, C_ofNat]
      rw [this]; exact hCX _ _ (by omega)
    have d5 : (C E.a₆ : k[X]).natDegree ≤ 2 * q := by rw [natDegree_C]; omega
    refine (natDegree_sub_le _ _).trans (max_le ((natDegree_sub_le _ _).trans (max_le ?_ ?_)) ?_)
    · exact natDegree_add_le_of_degree_le (natDegree_add_le_of_degree_le (natDegree_add_le_of_degree_le
        (natDegree_add_le_of_degree_le (natDegree_add_le_of_degree_le (hX _ (by omega)) d4)
          (hCX _ _ (by omega))) d5) d3) d2
    · exact hCX _ _ (by omega)
    · exact hX _ (by omega)
  rw [natDegree_add_eq_left_of_natDegree_lt (by rw [natDegree_X_pow]; omega), natDegree_X_pow]

/-- the X-coordinate of `Q - P₀` in lowest terms, and its height -/
theorem reduced (hk : ringChar k ≠ 2) (E : WeierstrassCurve k) (hE : E.Δ ≠ 0) (ha1 : E.a₁ = 0)
    (ha3 : E.a₃ = 0) :
    ∃ n b c : k[X], num0 E = c * n ∧ (X ^ Fintype.card k - X) ^ 2 = c * b ∧ c ≠ 0 ∧ b ≠ 0 ∧
      IsCoprime n b ∧ ht n b = (zs E).card + 2 * (ss E).card + 1 := by
  have h2 : (2 : k) ≠ 0 := Ring.two_ne_zero hk
  obtain ⟨f1, hf1⟩ := lin_dvd (zs E) (p := rhs E) (fun α h => mem_zs.1 h)
  obtain ⟨s2, hs2⟩ := lin_dvd (ns E) (p := rhs E ^ (Fintype.card k / 2) + 1) (fun α h => by
    have h1 := mem_ns.1 h
    have h0 : (rhs E).eval α ≠ 0 := fun h3 => h1 (by rw [h3]; exact ⟨0, by simp⟩)
    rw [eval_add, eval_pow, eval_one]
    rcases FiniteField.pow_dichotomy hk h0 with h3 | h3
    · exact absurd ((FiniteField.isSquare_iff hk h0).2 h3) h1
    · rw [h3]; ring)
  have hD := lin_split E
  have hn : num0 E = lin (zs E) * lin (ns E) ^ 2 *
      (f1 * s2 ^ 2 - (C E.a₂ + X ^ Fintype.card k + X) * (lin (zs E) * lin (ss E) ^ 2)) := by
    unfold num0
    rw [← hD, hs2]
    conv_lhs => rw [hf1]
    ring
  have hc0 : lin (zs E) * lin (ns E) ^ 2 ≠ 0 :=
    mul_ne_zero (lin_monic _).ne_zero (pow_ne_zero 2 (lin_monic _).ne_zero)
  have hb0 : lin (zs E) * lin (ss E) ^ 2 ≠ 0 :=
    mul_ne_zero (lin_monic _).ne_zero (pow_ne_zero 2 (lin_monic _).ne_zero)
  refine ⟨_, lin (zs E) * lin (ss E) ^ 2, _, hn, by rw [← hD]; ring, hc0, hb0, ?_, ?_⟩
  · have hf1z : ∀ α ∈ zs E, f1.eval α ≠ 0 := by
      intro α hα h0
      have hz := mem_zs.1 hα
      have heq : E.toAffine.Equation α 0 := by
        rw [Affine.equation_iff, ha1, ha3]
        rw [rhs_eval] at hz
        linear_combination -hz
      have hns := ((Affine.nonsingular_iff' _ _).1
        ((Affine.equation_iff_nonsingular_of_Δ_ne_zero hE).1 heq)).2
      have hd : (derivative (rhs E)).eval α = 0 := by
        rw [hf1, derivative_mul, eval_add, eval_mul, eval_mul, h0, lin_eval _ hα]
        ring
      have hd' : (derivative (rhs E)).eval α = 3 * α ^ 2 + 2 * E.a₂ * α + E.a₄ := by
        simp [rhs]; ring
      rw [hd'] at hd
      rcases hns with h | h
      · exact h (by rw [hd, ha1]; ring)
      · exact h (by rw [ha1, ha3]; ring)
    have hs : ∀ α, (rhs E ^ (Fintype.card k / 2) + 1).eval α ≠ 0 → s2.eval α ≠ 0 := by
      intro α h h0
      rw [hs2, eval_mul, h0, mul_zero] at h
      exact h rfl
    have hqpos : Fintype.card k / 2 ≠ 0 := by
      have := FiniteField.odd_card_of_char_ne_two hk
      have : 1 < Fintype.card k := Fintype.one_lt_card
      omega
    have k1 : IsCoprime (f1 * s2 ^ 2) (lin (zs E)) := by
      refine lin_coprime _ fun α hα => ?_
      rw [eval_mul, eval_pow]
      refine mul_ne_zero (hf1z α hα) (pow_ne_zero 2 (hs α ?_))
      rw [eval_add, eval_pow, mem_zs.1 hα, zero_pow hqpos, eval_one, zero_add]
      exact one_ne_zero
    have k2 : IsCoprime (f1 * s2 ^ 2) (lin (ss E)) := by
      refine lin_coprime _ fun α hα => ?_
      obtain ⟨h0, hsq⟩ := mem_ss.1 hα
      rw [eval_mul, eval_pow]
      refine mul_ne_zero (fun h => ?_) (pow_ne_zero 2 (hs α ?_))
      · apply h0
        rw [hf1, eval_mul, h, mul_zero]
      · rw [eval_add, eval_pow, (FiniteField.isSquare_iff hk h0).1 hsq, eval_one, one_add_one_eq_two]
        exact h2
    have k3 : IsCoprime (f1 * s2 ^ 2) (lin (zs E) * lin (ss E) ^ 2) := k1.mul_right (k2.pow_right)
    have := k3.add_mul_right_left (-(C E.a₂ + X ^ Fintype.card k + X))
    rw [neg_mul, ← sub_eq_add_neg] at this
    exact this
  · have hdeg := num0_degree hk E
    have hn0 : num0 E ≠ 0 := fun h => by rw [h, natDegree_zero] at hdeg; omega
    rw [hn] at hdeg hn0
    have hr := right_ne_zero_of_mul hn0
    rw [natDegree_mul hc0 hr, natDegree_mul (lin_monic _).ne_zero (pow_ne_zero 2 (lin_monic _).ne_zero),
      natDegree_pow, lin_natDegree, lin_natDegree] at hdeg
    have hcs := card_split E
    unfold ht
    rw [natDegree_mul (lin_monic _).ne_zero (pow_ne_zero 2 (lin_monic _).ne_zero),
      natDegree_pow, lin_natDegree, lin_natDegree]
    omega

end Eclib.Hasse
