import Verif.Mw.Det
import Mathlib.GroupTheory.Torsion
import Mathlib.Algebra.Group.Subgroup.Lattice
import Mathlib.Algebra.BigOperators.Fin
import Mathlib.LinearAlgebra.Matrix.Transvection

/-!
# Height pairing matrices and relations
-/

namespace Eclib.Mw

set_option linter.unusedSectionVars false

variable {K : Type} [Field K] [LinearOrder K] [IsStrictOrderedRing K] [FloorRing K]
variable {A : Type} [AddCommGroup A]

/-- the first `n` values of `x` are independent modulo torsion -/
def Indep (n : ℕ) (x : ℕ → A) : Prop := ∀ c : Fin n → ℤ, IsOfFinAddOrder (∑ i, c i • x i) → c = 0

/-- the matrix of values of the pairing -/
def gram (B : A →+ A →+ K) (n : ℕ) (x : ℕ → A) : Matrix (Fin n) (Fin n) K := Matrix.of fun i j => B (x i) (x j)

/-- the group generated by the first `n` values of `x` and the torsion -/
def Sp (n : ℕ) (x : ℕ → A) : AddSubgroup A := AddSubgroup.closure (Set.range fun i : Fin n => x i) ⊔ AddCommGroup.torsion A

theorem tors_left (B : A →+ A →+ K) {t : A} (h : IsOfFinAddOrder t) (y : A) : B t y = 0 := by
  obtain ⟨n, hn, h⟩ := isOfFinAddOrder_iff_nsmul_eq_zero.1 h
  have h1 : B (n • t) y = 0 := by rw [h]; simp
  rw [map_nsmul, AddMonoidHom.nsmul_apply, nsmul_eq_mul] at h1
  rcases mul_eq_zero.1 h1 with h2 | h2
  · exact absurd (Nat.cast_eq_zero.1 h2) hn.ne'
  · exact h2

theorem tors_right (B : A →+ A →+ K) {t : A} (h : IsOfFinAddOrder t) (y : A) : B y t = 0 := by
  obtain ⟨n, hn, h⟩ := isOfFinAddOrder_iff_nsmul_eq_zero.1 h
  have h1 : B y (n • t) = 0 := by rw [h]; simp
  rw [map_nsmul, nsmul_eq_mul] at h1
  rcases mul_eq_zero.1 h1 with h2 | h2
  · exact absurd (Nat.cast_eq_zero.1 h2) hn.ne'
  · exact h2

theorem gram_kernel (B : A →+ A →+ K) {n : ℕ} {x : ℕ → A} {c : Fin n → ℤ} (h : IsOfFinAddOrder (∑ i, c i • x i)) :
    (gram B n x).mulVec (fun i => (c i : K)) = 0 := by
  funext i
  have h1 := tors_right B h (x i)
  rw [map_sum] at h1
  simp only [Matrix.mulVec, dotProduct, gram, Matrix.of_apply, Pi.zero_apply]
  rw [← h1]
  refine Finset.sum_congr rfl fun j _ => ?_
  rw [map_zsmul, zsmul_eq_mul, mul_comm]

theorem gram_ne {B : A →+ A →+ K} {n : ℕ} {x : ℕ → A} (h : (gram B n x).det ≠ 0) : Indep n x := by
  intro c hc
  by_contra hne
  apply h
  rw [← Matrix.exists_mulVec_eq_zero_iff]
  refine ⟨_, ?_, gram_kernel B hc⟩
  intro h0
  apply hne
  funext i
  have := congrFun h0 i
  simpa using this

theorem mem_tors {a : A} : a ∈ AddCommGroup.torsion A ↔ IsOfFinAddOrder a := Iff.rfl

theorem mem_Sp {n : ℕ} {x : ℕ → A} {y : A} : y ∈ Sp n x ↔ ∃ c : Fin n → ℤ, IsOfFinAddOrder (y - ∑ i, c i • x i) := by
  constructor
  · intro h
    obtain ⟨u, hu, t, ht, rfl⟩ := AddSubgroup.mem_sup.1 h
    clear h
    have : ∃ c : Fin n → ℤ, u = ∑ i, c i • x i := by
      induction hu using AddSubgroup.closure_induction with
      | mem u hu =>
        obtain ⟨i, rfl⟩ := hu
        exact ⟨Pi.single i 1, by simp [Pi.single_apply]⟩
      | zero => exact ⟨0, by simp⟩
      | add u v _ _ hu hv =>
        obtain ⟨c, rfl⟩ := hu
        obtain ⟨d, rfl⟩ := hv
        exact ⟨c + d, by simp [add_smul, Finset.sum_add_distrib]⟩
      | neg u _ hu =>
        obtain ⟨c, rfl⟩ := hu
        exact ⟨-c, by simp⟩
    obtain ⟨c, rfl⟩ := this
    exact ⟨c, by rw [add_sub_cancel_left]; exact ht⟩
  · rintro ⟨c, hc⟩
    refine AddSubgroup.mem_sup.2 ⟨∑ i, c i • x i, ?_, _, hc, by abel⟩
    exact AddSubgroup.sum_mem _ fun i _ => AddSubgroup.zsmul_mem _ (AddSubgroup.subset_closure (Set.mem_range_self i)) _

theorem x_mem_Sp {n : ℕ} (x : ℕ → A) {i : ℕ} (h : i < n) : x i ∈ Sp n x :=
  AddSubgroup.mem_sup_left (AddSubgroup.subset_closure ⟨⟨i, h⟩, rfl⟩)

theorem tors_mem_Sp {n : ℕ} (x : ℕ → A) {t : A} (h : IsOfFinAddOrder t) : t ∈ Sp n x := AddSubgroup.mem_sup_right h

theorem Sp_le {n : ℕ} {x : ℕ → A} {G : AddSubgroup A} (h1 : ∀ i < n, x i ∈ G) (h2 : ∀ t, IsOfFinAddOrder t → t ∈ G) : Sp n x ≤ G := by
  refine sup_le ?_ fun t ht => h2 t ht
  rw [AddSubgroup.closure_le]
  rintro _ ⟨i, rfl⟩
  exact h1 i i.2

theorem Sp_succ (n : ℕ) (x : ℕ → A) (P : A) : Sp (n + 1) (Function.update x n P) = Sp n x ⊔ AddSubgroup.zmultiples P := by
  apply le_antisymm
  · refine Sp_le (fun i hi => ?_) (fun t ht => AddSubgroup.mem_sup_left (tors_mem_Sp x ht))
    by_cases h : i = n
    · rw [h, Function.update_self]
      exact AddSubgroup.mem_sup_right (AddSubgroup.mem_zmultiples P)
    · rw [Function.update_of_ne h]
      exact AddSubgroup.mem_sup_left (x_mem_Sp x (by omega))
  · refine sup_le (Sp_le (fun i hi => ?_) (fun t ht => tors_mem_Sp _ ht)) ?_
    · have := x_mem_Sp (Function.update x n P) (show i < n + 1 by omega)
      rwa [Function.update_of_ne hi.ne] at this
    · rw [AddSubgroup.zmultiples_le]
      have := x_mem_Sp (Function.update x n P) (show n < n + 1 by omega)
      rwa [Function.update_self] at this

/-- change of basis with an integer matrix -/
theorem gram_change (B : A →+ A →+ K) {n : ℕ} {x y : ℕ → A} {C : Matrix (Fin n) (Fin n) ℤ}
    (h : ∀ i : Fin n, IsOfFinAddOrder (x i - ∑ j, C i j • y j)) :
    gram B n x = C.map (Int.cast : ℤ → K) * gram B n y * (C.map (Int.cast : ℤ → K)).transpose := by
  have e1 : ∀ i : Fin n, ∀ z, B (x i) z = ∑ k, (C i k : K) * B (y k) z := by
    intro i z
    have := tors_left B (h i) z
    rw [map_sub, AddMonoidHom.sub_apply, sub_eq_zero, map_sum, AddMonoidHom.finsetSum_apply] at this
    rw [this]
    refine Finset.sum_congr rfl fun k _ => ?_
    rw [map_zsmul, AddMonoidHom.zsmul_apply, zsmul_eq_mul]
  have e2 : ∀ i : Fin n, ∀ z, B z (x i) = ∑ k, (C i k : K) * B z (y k) := by
    intro i z
    have := tors_right B (h i) z
    rw [map_sub, sub_eq_zero, map_sum] at this
    rw [this]
    refine Finset.sum_congr rfl fun k _ => ?_
    rw [map_zsmul, zsmul_eq_mul]
  ext i j
  simp only [Matrix.mul_apply, gram, Matrix.of_apply, Matrix.transpose_apply, Matrix.map_apply]
  rw [e2]
  refine Finset.sum_congr rfl fun k _ => ?_
  rw [e1, mul_comm]

theorem gram_change_det (B : A →+ A →+ K) {n : ℕ} {x y : ℕ → A} {C : Matrix (Fin n) (Fin n) ℤ}
    (h : ∀ i : Fin n, IsOfFinAddOrder (x i - ∑ j, C i j • y j)) :
    (gram B n x).det = (C.det : K) ^ 2 * (gram B n y).det := by
  have e : (C.map (Int.cast : ℤ → K)).det = (C.det : K) := by
    have := (Int.castRingHom K).map_det C
    simpa using this.symm
  rw [gram_change B h, Matrix.det_mul, Matrix.det_mul, Matrix.det_transpose, e]
  ring

/-! ## a relation -/

/-- the cofactors of the matrix are multiples of the products of the coefficients of a relation -/
def Prop2 (B : A →+ A →+ K) (n : ℕ) (x : ℕ → A) (a : ℕ → ℤ) (l : K) : Prop :=
  ∀ i j : Fin n, (gram B n x).adjugate i j = l * (a i) * (a j)

theorem prop2_init {B : A →+ A →+ K} (hs : ∀ P Q, B P Q = B Q P) {r : ℕ} {x : ℕ → A} {a : ℕ → ℤ}
    (h : IsOfFinAddOrder (∑ i : Fin (r + 1), a i • x i)) (ha : a r ≠ 0) :
    Prop2 B (r + 1) x a ((gram B r x).det / (a r) ^ 2) := by
  intro i j
  have hk := gram_kernel B (c := fun i : Fin (r + 1) => a i) h
  have hsym : (gram B (r + 1) x).transpose = gram B (r + 1) x := by
    ext i j
    exact hs _ _
  have h3 : ∀ i j, (gram B (r + 1) x).adjugate i j = (gram B (r + 1) x).adjugate j i := by
    intro i j
    have := (gram B (r + 1) x).adjugate_transpose
    rw [hsym] at this
    exact (congrFun (congrFun this j) i)
  have e0 : (gram B (r + 1) x).adjugate (Fin.last r) (Fin.last r) = (gram B r x).det := by
    rw [adj_diag]
    congr 1
    ext i j
    simp [gram]
  have h1 := adj_kernel hk i (Fin.last r) j
  have h2 := adj_kernel hk j (Fin.last r) (Fin.last r)
  rw [h3 j (Fin.last r)] at h2
  have ha' : ((a r : ℤ) : K) ≠ 0 := by exact_mod_cast ha
  simp only [Fin.val_last] at h1 h2
  rw [e0] at h2
  field_simp
  linear_combination (a r : K) * h1 + (a i : K) * h2

theorem prop2_step {B : A →+ A →+ K} {n : ℕ} {x : ℕ → A} {a : ℕ → ℤ} {l : K} (h : Prop2 B n x a l) {i k : ℕ} (hi : i < n)
    (hk : k < n) (hik : i ≠ k) (q : ℤ) :
    Prop2 B n (Function.update x k (x k + q • x i)) (Function.update a i (a i - q * a k)) l := by
  let I : Fin n := ⟨i, hi⟩
  let J : Fin n := ⟨k, hk⟩
  have hJI : J ≠ I := fun h => hik (congrArg Fin.val h).symm
  have hg : gram B n (Function.update x k (x k + q • x i)) =
      Matrix.transvection J I (q : K) * gram B n x * (Matrix.transvection J I (q : K)).transpose := by
    have hx : ∀ u : Fin n, Function.update x k (x k + q • x i) u = x u + (if u = J then q • x i else 0) := by
      intro u
      by_cases hu : u = J
      · subst hu
        simp [J]
      · have : (u : ℕ) ≠ k := fun h => hu (Fin.ext h)
        rw [Function.update_of_ne this, if_neg hu, add_zero]
    ext u v
    have e1 : ∀ u v, (Matrix.transvection J I (q : K) * gram B n x) u v = gram B n x u v + if u = J then (q : K) * gram B n x I v else 0 := by
      intro u v
      by_cases hu : u = J
      · subst hu
        rw [Matrix.transvection_mul_apply_same, if_pos rfl]
      · rw [Matrix.transvection_mul_apply_of_ne _ _ _ _ hu, if_neg hu, add_zero]
    have e2 : ∀ N : Matrix (Fin n) (Fin n) K, ∀ u v, (N * (Matrix.transvection J I (q : K)).transpose) u v = N u v + if v = J then (q : K) * N u I else 0 := by
      intro N u v
      rw [show N * (Matrix.transvection J I (q : K)).transpose = (Matrix.transvection J I (q : K) * N.transpose).transpose by
        rw [Matrix.transpose_mul, Matrix.transpose_transpose]]
      rw [Matrix.transpose_apply]
      by_cases hv : v = J
      · subst hv
        rw [Matrix.transvection_mul_apply_same, if_pos rfl]
        rfl
      · rw [Matrix.transvection_mul_apply_of_ne _ _ _ _ hv, if_neg hv, add_zero]
        rfl
    rw [e2, e1, e1]
    simp only [gram, Matrix.of_apply, hx]
    by_cases hu : u = J <;> by_cases hv : v = J <;> simp [hu, hv, I, J]  <;> ring
  have hinv : Matrix.transvection J I (-(q : K)) * Matrix.transvection J I (q : K) = 1 := by
    rw [Matrix.transvection_mul_transvection_same _ _ hJI]
    simp
  have hadj : (Matrix.transvection J I (q : K)).adjugate = Matrix.transvection J I (-(q : K)) := by
    have h1 := (Matrix.transvection J I (q : K)).mul_adjugate
    rw [Matrix.det_transvection_of_ne _ _ hJI, one_smul] at h1
    calc _ = 1 * (Matrix.transvection J I (q : K)).adjugate := (one_mul _).symm
      _ = _ := by rw [← hinv, mul_assoc, h1, mul_one]
  have hadjT : (Matrix.transvection J I (q : K)).transpose.adjugate = (Matrix.transvection J I (-(q : K))).transpose := by
    rw [← Matrix.adjugate_transpose, hadj]
  have hA : (gram B n x).adjugate = Matrix.of fun i j : Fin n => l * (a i) * (a j) := by
    ext i j
    exact h i j
  have ha : ∀ u : Fin n, ((Function.update a i (a i - q * a k) u : ℤ) : K) = a u + if u = I then -(q : K) * a k else 0 := by
    intro u
    by_cases hu : u = I
    · subst hu
      simp [I]
      ring
    · have : (u : ℕ) ≠ i := fun h => hu (Fin.ext h)
      rw [Function.update_of_ne this, if_neg hu, add_zero]
  intro u v
  rw [hg, Matrix.adjugate_mul_distrib, Matrix.adjugate_mul_distrib, hadj, hadjT, hA, ha, ha]
  have f1 : ∀ N : Matrix (Fin n) (Fin n) K, ∀ u v, (N * Matrix.transvection J I (-(q : K))) u v = N u v + if v = I then -(q : K) * N u J else 0 := by
    intro N u v
    by_cases hv : v = I
    · subst hv
      rw [Matrix.mul_transvection_apply_same, if_pos rfl]
    · rw [Matrix.mul_transvection_apply_of_ne _ _ _ _ hv, if_neg hv, add_zero]
  have f2 : ∀ N : Matrix (Fin n) (Fin n) K, ∀ u v, ((Matrix.transvection J I (-(q : K))).transpose * N) u v = N u v + if u = I then -(q : K) * N J v else 0 := by
    intro N u v
    rw [show (Matrix.transvection J I (-(q : K))).transpose * N = (N.transpose * Matrix.transvection J I (-(q : K))).transpose by
      rw [Matrix.transpose_mul, Matrix.transpose_transpose]]
    rw [Matrix.transpose_apply, f1]
    rfl
  rw [f2, f1, f1]
  simp only [Matrix.of_apply]
  by_cases hu : u = I <;> by_cases hv : v = I <;> simp [hu, hv, I, J] <;> ring

/-- the matrix of the points that are left -/
theorem prop2_erase {B : A →+ A →+ K} {r : ℕ} {x : ℕ → A} {a : ℕ → ℤ} {l : K} (h : Prop2 B (r + 1) x a l) {i : ℕ} (hi : i < r + 1)
    (ha : |a i| = 1) : (gram B r (erase x i)).det = l := by
  have h1 := h ⟨i, hi⟩ ⟨i, hi⟩
  rw [adj_diag] at h1
  have e : (gram B (r + 1) x).submatrix (Fin.succAbove ⟨i, hi⟩) (Fin.succAbove ⟨i, hi⟩) = gram B r (erase x i) := by
    have hh := minor_eq r (fun u v => B (x u) (x v)) ⟨i, hi⟩ ⟨i, hi⟩
    rw [show gram B (r + 1) x = toM (r + 1) (fun u v => B (x u) (x v)) from rfl, ← hh]
    ext u v
    simp only [toM, gram, Matrix.of_apply, getMinor, erase]
    have e3 : ∀ u : Fin r, (if (u : ℕ) ≥ i then (u : ℕ) + 1 else u) = if (u : ℕ) < i then (u : ℕ) else u + 1 := by
      intro u
      split_ifs <;> omega
    have e4 : ∀ u : Fin r, x (if (u : ℕ) ≥ i then (u : ℕ) + 1 else u) = if (u : ℕ) < i then x u else x (u + 1) := by
      intro u
      rw [e3]
      split_ifs <;> rfl
    rw [e4, e4]
  rw [e] at h1
  rw [h1, mul_assoc]
  have : ((a i : ℤ) : K) * (a i : K) = 1 := by
    rcases abs_eq (by norm_num : (0 : ℤ) ≤ 1) |>.1 ha with h2 | h2 <;> rw [h2] <;> norm_num
  simp only [this, mul_one]

end Eclib.Mw
