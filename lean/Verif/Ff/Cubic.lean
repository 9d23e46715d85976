import Mathlib.RingTheory.AdjoinRoot
import Mathlib.RingTheory.Norm.Basic
import Mathlib.LinearAlgebra.Matrix.Determinant.Basic
import Mathlib.Tactic.LinearCombination
import Mathlib.Tactic.ComputeDegree

/-!
# Norms from `R[θ]`, `θ³ + aθ² + bθ + c = 0`; degrees of norms when `R = F[μ]`
-/

set_option linter.unusedSectionVars false

namespace Eclib.Ff

open Polynomial

section
variable {R : Type} [CommRing R] [Nontrivial R]

/-- the cubic -/
noncomputable def cub (a b c : R) : R[X] := X ^ 3 + C a * X ^ 2 + C b * X + C c

theorem cub_monic (a b c : R) : (cub a b c).Monic := by
  unfold cub
  monicity!

theorem cub_natDegree (a b c : R) : (cub a b c).natDegree = 3 := by
  unfold cub
  compute_degree!

/-- the norm of `c0 + c1 θ + c2 θ²` -/
def nm (a b c c0 c1 c2 : R) : R :=
  c0 ^ 3 - a * c0 ^ 2 * c1 + (a ^ 2 - 2 * b) * c0 ^ 2 * c2 + b * c0 * c1 ^ 2 + (3 * c - a * b) * c0 * c1 * c2 +
    (b ^ 2 - 2 * a * c) * c0 * c2 ^ 2 - c * c1 ^ 3 + a * c * c1 ^ 2 * c2 - b * c * c1 * c2 ^ 2 + c ^ 2 * c2 ^ 3

/-- the basis `1, θ, θ²` -/
noncomputable def bas (a b c : R) : Module.Basis (Fin 3) R (AdjoinRoot (cub a b c)) :=
  (AdjoinRoot.powerBasis' (cub_monic a b c)).basis.reindex (finCongr (cub_natDegree a b c))

theorem bas_apply (a b c : R) (i : Fin 3) : bas a b c i = AdjoinRoot.root (cub a b c) ^ (i : ℕ) := by
  simp only [bas, Module.Basis.reindex_apply, PowerBasis.basis_eq_pow, AdjoinRoot.powerBasis'_gen]
  rfl

/-- the element with the given coordinates -/
noncomputable def el (a b c c0 c1 c2 : R) : AdjoinRoot (cub a b c) :=
  AdjoinRoot.of _ c0 + AdjoinRoot.of _ c1 * AdjoinRoot.root _ + AdjoinRoot.of _ c2 * AdjoinRoot.root _ ^ 2

theorem el_eq (a b c c0 c1 c2 : R) :
    el a b c c0 c1 c2 = c0 • bas a b c 0 + c1 • bas a b c 1 + c2 • bas a b c 2 := by
  simp only [bas_apply, Algebra.smul_def, AdjoinRoot.algebraMap_eq, el]
  simp

theorem el_repr (a b c c0 c1 c2 : R) (i : Fin 3) : (bas a b c).repr (el a b c c0 c1 c2) i = ![c0, c1, c2] i := by
  rw [el_eq]
  fin_cases i <;> simp

theorem root_eq (a b c : R) : AdjoinRoot.root (cub a b c) ^ 3 = -(AdjoinRoot.of _ a * AdjoinRoot.root (cub a b c) ^ 2 +
    AdjoinRoot.of _ b * AdjoinRoot.root _ + AdjoinRoot.of _ c) := by
  have e : ∀ {S : Type} [CommRing S] (f : R →+* S) (t : S), eval₂ f t (cub a b c) = t ^ 3 + f a * t ^ 2 + f b * t + f c := by
    intro S _ f t
    simp only [cub, eval₂_add, eval₂_mul, eval₂_pow, eval₂_X, eval₂_C]
  have h := (e _ _).symm.trans (AdjoinRoot.eval₂_root (cub a b c))
  linear_combination h

theorem el_mul_root (a b c c0 c1 c2 : R) :
    el a b c c0 c1 c2 * AdjoinRoot.root _ = el a b c (-c2 * c) (c0 - c2 * b) (c1 - c2 * a) := by
  have h := root_eq a b c
  simp only [el, map_sub, map_mul, map_neg]
  linear_combination (AdjoinRoot.of (cub a b c) c2) * h

theorem norm_el (a b c c0 c1 c2 : R) : Algebra.norm R (el a b c c0 c1 c2) = nm a b c c0 c1 c2 := by
  have h0 : el a b c c0 c1 c2 * bas a b c 0 = el a b c c0 c1 c2 := by rw [bas_apply]; simp
  have h1 : el a b c c0 c1 c2 * bas a b c 1 = el a b c (-c2 * c) (c0 - c2 * b) (c1 - c2 * a) := by
    rw [bas_apply, ← el_mul_root]; simp
  have h2 : el a b c c0 c1 c2 * bas a b c 2 = el a b c (-(c1 - c2 * a) * c) (-c2 * c - (c1 - c2 * a) * b)
      (c0 - c2 * b - (c1 - c2 * a) * a) := by
    rw [bas_apply, ← el_mul_root, ← el_mul_root, mul_assoc, ← sq]; simp
  rw [Algebra.norm_eq_matrix_det (bas a b c), Matrix.det_fin_three]
  simp only [Algebra.leftMulMatrix_eq_repr_mul, h0, h1, h2, el_repr]
  simp only [Matrix.cons_val_zero, Matrix.cons_val_one, Matrix.cons_val]
  unfold nm
  ring

theorem exists_el {a b c : R} (z : AdjoinRoot (cub a b c)) : ∃ c0 c1 c2, z = el a b c c0 c1 c2 := by
  refine ⟨(bas a b c).repr z 0, (bas a b c).repr z 1, (bas a b c).repr z 2, ?_⟩
  rw [el_eq]
  conv_lhs => rw [← (bas a b c).sum_repr z, Fin.sum_univ_three]

/-- the norm when the cubic splits -/
theorem nm_split {a b c r s t : R} (h1 : a = -(r + s + t)) (h2 : b = r * s + r * t + s * t) (h3 : c = -(r * s * t)) (c0 c1 c2 : R) :
    nm a b c c0 c1 c2 = (c0 + c1 * r + c2 * r ^ 2) * (c0 + c1 * s + c2 * s ^ 2) * (c0 + c1 * t + c2 * t ^ 2) := by
  subst h1 h2 h3
  unfold nm
  ring

end

/-! ## degrees: `μ` has the weight 3 -/

variable {F : Type} [Field F] [DecidableEq F]

/-- three times the degree is at most `w` -/
def W (p : F[X]) (w : ℤ) : Prop := ∀ i : ℕ, w < 3 * i → p.coeff i = 0

theorem W.mono {p : F[X]} {v w : ℤ} (h : W p v) (hvw : v ≤ w) : W p w := fun i hi => h i (by omega)

theorem W.add {p q : F[X]} {w : ℤ} (h : W p w) (h' : W q w) : W (p + q) w := fun i hi => by
  rw [coeff_add, h i hi, h' i hi, add_zero]

theorem W.neg {p : F[X]} {w : ℤ} (h : W p w) : W (-p) w := fun i hi => by
  rw [coeff_neg, h i hi, neg_zero]

theorem W.sub {p q : F[X]} {w : ℤ} (h : W p w) (h' : W q w) : W (p - q) w := fun i hi => by
  rw [coeff_sub, h i hi, h' i hi, sub_zero]

theorem W.mul {p q : F[X]} {v w u : ℤ} (h : W p v) (h' : W q w) (hu : v + w ≤ u) : W (p * q) u := fun i hi => by
  rw [coeff_mul]
  refine Finset.sum_eq_zero fun x hx => ?_
  have := Finset.mem_antidiagonal.mp hx
  rcases lt_or_ge v (3 * x.1) with h1 | h1
  · rw [h _ h1, zero_mul]
  · rw [h' _ (by omega), mul_zero]

theorem W_C (c : F) : W (C c) 0 := fun i hi => by rw [coeff_C, if_neg (by omega)]

theorem W_X : W (X : F[X]) 3 := fun i hi => by rw [coeff_X, if_neg (by omega)]

theorem W_zero (w : ℤ) : W (0 : F[X]) w := fun i _ => coeff_zero i

theorem W.pow2 {p : F[X]} {v u : ℤ} (h : W p v) (hu : 2 * v ≤ u) : W (p ^ 2) u := by
  rw [sq]; exact h.mul h (by omega)

theorem W.pow3 {p : F[X]} {v u : ℤ} (h : W p v) (hu : 3 * v ≤ u) : W (p ^ 3) u := by
  rw [pow_succ]; exact (h.pow2 le_rfl).mul h (by omega)

/-- the coefficient at the highest place -/
theorem W.top {p q : F[X]} {i j : ℕ} (h : W p (3 * i)) (h' : W q (3 * j)) : (p * q).coeff (i + j) = p.coeff i * q.coeff j := by
  rw [coeff_mul, Finset.sum_eq_single (i, j)]
  · intro x hx hne
    have hx := Finset.mem_antidiagonal.mp hx
    rcases lt_or_ge i x.1 with h1 | h1
    · rw [h _ (by omega), zero_mul]
    · rcases lt_or_ge j x.2 with h2 | h2
      · rw [h' _ (by omega), mul_zero]
      · exact absurd (Prod.ext (by omega) (by omega)) hne
  · intro hne
    exact absurd (Finset.mem_antidiagonal.mpr (rfl : (i, j).1 + (i, j).2 = i + j)) hne

theorem W.top3 {p : F[X]} {i : ℕ} (h : W p (3 * i)) (h1 : p.coeff i = 1) : (p ^ 3).coeff (3 * i) = 1 := by
  have e : 3 * i = i + i + i := by ring
  have h2 : W (p ^ 2) (3 * (i + i : ℕ)) := h.pow2 (by push_cast; omega)
  rw [e, pow_succ, h2.top h, sq, h.top h, h1]
  ring

/-- the coefficients of the cubic as polynomials in `μ` -/
structure Cf (a b c : F[X]) : Prop where
  a : W a 0
  b : W b 3
  c : W (c + X ^ 2) 3

theorem Cf.c6 {a b c : F[X]} (h : Cf a b c) : W c 6 := by
  have := (h.c.mono (by omega : (3 : ℤ) ≤ 6)).sub (W_X.pow2 (u := 6) (by omega) : W (X ^ 2 : F[X]) 6)
  rwa [add_sub_cancel_right] at this

theorem Cf.ctop {a b c : F[X]} (h : Cf a b c) : c.coeff 2 = -1 := by
  have := h.c 2 (by norm_num)
  rw [coeff_add, coeff_X_pow, if_pos rfl] at this
  exact eq_neg_of_add_eq_zero_left this

/-- an element of weight at most `n` -/
def G (a b c : F[X]) (n : ℤ) (z : AdjoinRoot (cub a b c)) : Prop :=
  ∃ c0 c1 c2, z = el a b c c0 c1 c2 ∧ W c0 n ∧ W c1 (n - 2) ∧ W c2 (n - 4)

/-- an element of weight `n` with leading coefficient 1 -/
def GM (a b c : F[X]) (n : ℕ) (z : AdjoinRoot (cub a b c)) : Prop :=
  ∃ c0 c1 c2, z = el a b c c0 c1 c2 ∧ (W c0 n ∧ W c1 (n - 2) ∧ W c2 (n - 4)) ∧
    (∀ i, 3 * i = n → c0.coeff i = 1) ∧ (∀ i, 3 * i + 2 = n → c1.coeff i = 1) ∧ (∀ i, 3 * i + 4 = n → c2.coeff i = 1)

variable {a b c : F[X]}

theorem el_add (c0 c1 c2 d0 d1 d2 : F[X]) :
    el a b c c0 c1 c2 + el a b c d0 d1 d2 = el a b c (c0 + d0) (c1 + d1) (c2 + d2) := by
  simp only [el, map_add]; ring

theorem el_smul (k c0 c1 c2 : F[X]) : AdjoinRoot.of _ k * el a b c c0 c1 c2 = el a b c (k * c0) (k * c1) (k * c2) := by
  simp only [el, map_mul]; ring

theorem G.add {n : ℤ} {z w : AdjoinRoot (cub a b c)} (hz : G a b c n z) (hw : G a b c n w) : G a b c n (z + w) := by
  obtain ⟨c0, c1, c2, rfl, h0, h1, h2⟩ := hz
  obtain ⟨d0, d1, d2, rfl, g0, g1, g2⟩ := hw
  exact ⟨_, _, _, el_add _ _ _ _ _ _, h0.add g0, h1.add g1, h2.add g2⟩

theorem G_zero (n : ℤ) : G a b c n 0 := ⟨0, 0, 0, by simp [el], W_zero _, W_zero _, W_zero _⟩

theorem G.mono {n m : ℤ} {z : AdjoinRoot (cub a b c)} (hz : G a b c n z) (h : n ≤ m) : G a b c m z := by
  obtain ⟨c0, c1, c2, rfl, h0, h1, h2⟩ := hz
  exact ⟨_, _, _, rfl, h0.mono h, h1.mono (by omega), h2.mono (by omega)⟩

theorem G.smul {n : ℤ} {z : AdjoinRoot (cub a b c)} (hz : G a b c n z) (k : F) : G a b c n (AdjoinRoot.of _ (C k) * z) := by
  obtain ⟨c0, c1, c2, rfl, h0, h1, h2⟩ := hz
  exact ⟨_, _, _, el_smul _ _ _ _, (W_C k).mul h0 (by omega), (W_C k).mul h1 (by omega), (W_C k).mul h2 (by omega)⟩

theorem GM.toG {n : ℕ} {z : AdjoinRoot (cub a b c)} (hz : GM a b c n z) : G a b c n z := by
  obtain ⟨c0, c1, c2, rfl, ⟨h0, h1, h2⟩, _⟩ := hz
  exact ⟨_, _, _, rfl, h0, h1, h2⟩

theorem GM.add {n : ℕ} {m : ℤ} {z w : AdjoinRoot (cub a b c)} (hz : GM a b c n z) (hw : G a b c m w) (h : m < n) :
    GM a b c n (z + w) := by
  obtain ⟨c0, c1, c2, rfl, ⟨h0, h1, h2⟩, t0, t1, t2⟩ := hz
  obtain ⟨d0, d1, d2, rfl, g0, g1, g2⟩ := hw
  refine ⟨_, _, _, el_add _ _ _ _ _ _, ⟨h0.add (g0.mono (by omega)), h1.add (g1.mono (by omega)), h2.add (g2.mono (by omega))⟩, ?_, ?_, ?_⟩
  · intro i hi
    rw [coeff_add, t0 i hi, g0 i (by omega), add_zero]
  · intro i hi
    rw [coeff_add, t1 i hi, g1 i (by omega), add_zero]
  · intro i hi
    rw [coeff_add, t2 i hi, g2 i (by omega), add_zero]

theorem GM_one : GM a b c 0 1 := by
  refine ⟨1, 0, 0, by simp [el], ⟨?_, W_zero _, W_zero _⟩, ?_, ?_, ?_⟩
  · exact (W_C (1 : F))
  · intro i hi
    obtain rfl : i = 0 := by omega
    simp
  · intro i hi; omega
  · intro i hi; omega

theorem GM.mul_root (hc : Cf a b c) {n : ℕ} (hn : n ≠ 1) {z : AdjoinRoot (cub a b c)} (hz : GM a b c n z) :
    GM a b c (n + 2) (z * AdjoinRoot.root _) := by
  obtain ⟨c0, c1, c2, rfl, ⟨h0, h1, h2⟩, t0, t1, t2⟩ := hz
  refine ⟨_, _, _, el_mul_root _ _ _ _ _ _, ⟨h2.neg.mul hc.c6 (by push_cast; omega),
    (h0.mono (by push_cast; omega)).sub (h2.mul hc.b (by push_cast; omega)),
    (h1.mono (by push_cast; omega)).sub (h2.mul hc.a (by push_cast; omega))⟩, ?_, ?_, ?_⟩
  · intro i hi
    obtain ⟨j, rfl⟩ : ∃ j, i = j + 2 := ⟨i - 2, by omega⟩
    have e := (h2.neg.mono (w := 3 * (j : ℕ)) (by omega)).top (hc.c6.mono (w := 3 * (2 : ℕ)) (by norm_num))
    rw [e, coeff_neg, t2 j (by omega), hc.ctop]
    ring
  · intro i hi
    rw [coeff_sub, t0 i (by omega), h2.mul hc.b (u := n - 1) (by omega) i (by omega), sub_zero]
  · intro i hi
    rw [coeff_sub, t1 i (by omega), h2.mul hc.a (u := n - 4) (by omega) i (by omega), sub_zero]

theorem GM.mul_X {n : ℕ} (hn : n ≠ 1) {z : AdjoinRoot (cub a b c)} (hz : GM a b c n z) :
    GM a b c (n + 3) (AdjoinRoot.of _ X * z) := by
  obtain ⟨c0, c1, c2, rfl, ⟨h0, h1, h2⟩, t0, t1, t2⟩ := hz
  refine ⟨_, _, _, el_smul _ _ _ _, ⟨W_X.mul h0 (by push_cast; omega), W_X.mul h1 (by push_cast; omega),
    W_X.mul h2 (by push_cast; omega)⟩, ?_, ?_, ?_⟩
  · intro i hi
    obtain ⟨j, rfl⟩ : ∃ j, i = j + 1 := ⟨i - 1, by omega⟩
    rw [coeff_X_mul, t0 j (by omega)]
  · intro i hi
    cases i with
    | zero =>
      exfalso
      omega
    | succ j => rw [coeff_X_mul, t1 j (by omega)]
  · intro i hi
    cases i with
    | zero =>
      exfalso
      omega
    | succ j => rw [coeff_X_mul, t2 j (by omega)]

theorem W.shrink {p : F[X]} {w v : ℤ} (h : W p w) (hv : ∀ i : ℕ, (3 * i : ℤ) ≤ w → (3 * i : ℤ) ≤ v) : W p v := fun i hi => by
  rcases lt_or_ge w (3 * i) with h1 | h1
  · exact h i h1
  · exact absurd (hv i h1) (by omega)

/-- the norm of an element of weight `n` with leading coefficient 1 has degree `n` and leading coefficient 1 -/
theorem GM.norm (hc : Cf a b c) {n : ℕ} (hn : n ≠ 1) {z : AdjoinRoot (cub a b c)} (hz : GM a b c n z) :
    (Algebra.norm F[X] z).coeff n = 1 ∧ W (Algebra.norm F[X] z) (3 * n) := by
  obtain ⟨c0, c1, c2, rfl, ⟨h0, h1, h2⟩, t0, t1, t2⟩ := hz
  rw [norm_el]
  have hA := hc.a
  have hB := hc.b
  have hC := hc.c6
  have two : W (2 : F[X]) 0 := W_C (2 : F)
  have three : W (3 : F[X]) 0 := W_C (3 : F)
  have k2 : W (a ^ 2 - 2 * b) 3 := (hA.pow2 (by omega)).sub (two.mul hB (by omega))
  have k3 : W (3 * c - a * b) 6 := (three.mul hC (by omega)).sub (hA.mul hB (by omega))
  have k4 : W (b ^ 2 - 2 * a * c) 6 := (hB.pow2 (by omega)).sub ((two.mul hA (u := 0) (by omega)).mul hC (by omega))
  have kac : W (a * c) 6 := hA.mul hC (by omega)
  have kbc : W (b * c) 9 := hB.mul hC (by omega)
  have kcc : W (c ^ 2) 12 := hC.pow2 (by omega)
  have hmod : n % 3 = 0 ∨ n % 3 = 2 ∨ n % 3 = 1 := by omega
  rcases hmod with hm | hm | hm
  · obtain ⟨k, rfl⟩ : ∃ k, n = 3 * k := ⟨n / 3, by omega⟩
    push_cast at h0 h1 h2 ⊢
    replace h1 : W c1 (3 * k - 3) := h1.shrink (fun i hi => by omega)
    replace h2 : W c2 (3 * k - 6) := h2.shrink (fun i hi => by omega)
    have hr : W (nm a b c c0 c1 c2 - c0 ^ 3) (3 * (3 * k) - 1) := by
      rw [show nm a b c c0 c1 c2 - c0 ^ 3 = -(a * (c0 ^ 2 * c1)) + (a ^ 2 - 2 * b) * (c0 ^ 2 * c2) + b * (c0 * c1 ^ 2) +
        (3 * c - a * b) * (c0 * (c1 * c2)) + (b ^ 2 - 2 * a * c) * (c0 * c2 ^ 2) - c * c1 ^ 3 + (a * c) * (c1 ^ 2 * c2) -
        (b * c) * (c1 * c2 ^ 2) + c ^ 2 * c2 ^ 3 by unfold nm; ring]
      refine ((((((((hA.mul ((h0.pow2 le_rfl).mul h1 le_rfl) ?_).neg.add (k2.mul ((h0.pow2 le_rfl).mul h2 le_rfl) ?_)).add
        (hB.mul (h0.mul (h1.pow2 le_rfl) le_rfl) ?_)).add (k3.mul (h0.mul (h1.mul h2 le_rfl) le_rfl) ?_)).add
        (k4.mul (h0.mul (h2.pow2 le_rfl) le_rfl) ?_)).sub (hC.mul (h1.pow3 le_rfl) ?_)).add
        (kac.mul ((h1.pow2 le_rfl).mul h2 le_rfl) ?_)).sub (kbc.mul (h1.mul (h2.pow2 le_rfl) le_rfl) ?_)).add
        (kcc.mul (h2.pow3 le_rfl) ?_) <;> omega
    have e : nm a b c c0 c1 c2 = (nm a b c c0 c1 c2 - c0 ^ 3) + c0 ^ 3 := by ring
    refine ⟨?_, ?_⟩
    · rw [e, coeff_add, hr _ (by push_cast; omega), zero_add, h0.top3 (t0 k rfl)]
    · rw [e]; exact (hr.mono (by omega)).add (h0.pow3 (by omega))
  · obtain ⟨k, rfl⟩ : ∃ k, n = 3 * k + 2 := ⟨n / 3, by omega⟩
    push_cast at h0 h1 h2 ⊢
    replace h0 : W c0 (3 * k) := h0.shrink (fun i hi => by omega)
    replace h1 : W c1 (3 * k) := h1.shrink (fun i hi => by omega)
    replace h2 : W c2 (3 * k - 3) := h2.shrink (fun i hi => by omega)
    have hr : W (nm a b c c0 c1 c2 + c * c1 ^ 3) (3 * (3 * k + 2) - 1) := by
      rw [show nm a b c c0 c1 c2 + c * c1 ^ 3 = -(a * (c0 ^ 2 * c1)) + (a ^ 2 - 2 * b) * (c0 ^ 2 * c2) + b * (c0 * c1 ^ 2) +
        (3 * c - a * b) * (c0 * (c1 * c2)) + (b ^ 2 - 2 * a * c) * (c0 * c2 ^ 2) + c0 ^ 3 + (a * c) * (c1 ^ 2 * c2) -
        (b * c) * (c1 * c2 ^ 2) + c ^ 2 * c2 ^ 3 by unfold nm; ring]
      refine ((((((((hA.mul ((h0.pow2 le_rfl).mul h1 le_rfl) ?_).neg.add (k2.mul ((h0.pow2 le_rfl).mul h2 le_rfl) ?_)).add
        (hB.mul (h0.mul (h1.pow2 le_rfl) le_rfl) ?_)).add (k3.mul (h0.mul (h1.mul h2 le_rfl) le_rfl) ?_)).add
        (k4.mul (h0.mul (h2.pow2 le_rfl) le_rfl) ?_)).add (h0.pow3 ?_)).add
        (kac.mul ((h1.pow2 le_rfl).mul h2 le_rfl) ?_)).sub (kbc.mul (h1.mul (h2.pow2 le_rfl) le_rfl) ?_)).add
        (kcc.mul (h2.pow3 le_rfl) ?_) <;> omega
    have e : nm a b c c0 c1 c2 = (nm a b c c0 c1 c2 + c * c1 ^ 3) - c * c1 ^ 3 := by ring
    refine ⟨?_, ?_⟩
    · have ht := (hC.mono (w := 3 * (2 : ℕ)) (by norm_num)).top (h1.pow3 (u := 3 * (3 * k : ℕ)) (by push_cast; omega))
      rw [e, coeff_sub, hr _ (by push_cast; omega), zero_sub, add_comm (3 * k) 2, ht, hc.ctop, h1.top3 (t1 k rfl)]
      ring
    · rw [e]; exact (hr.mono (by omega)).sub (hC.mul (h1.pow3 le_rfl) (by omega))
  · obtain ⟨k, rfl⟩ : ∃ k, n = 3 * k + 4 := ⟨n / 3 - 1, by omega⟩
    push_cast at h0 h1 h2 ⊢
    replace h0 : W c0 (3 * k + 3) := h0.shrink (fun i hi => by omega)
    replace h1 : W c1 (3 * k) := h1.shrink (fun i hi => by omega)
    replace h2 : W c2 (3 * k) := h2.shrink (fun i hi => by omega)
    have hr : W (nm a b c c0 c1 c2 - c ^ 2 * c2 ^ 3) (3 * (3 * k + 4) - 1) := by
      rw [show nm a b c c0 c1 c2 - c ^ 2 * c2 ^ 3 = -(a * (c0 ^ 2 * c1)) + (a ^ 2 - 2 * b) * (c0 ^ 2 * c2) + b * (c0 * c1 ^ 2) +
        (3 * c - a * b) * (c0 * (c1 * c2)) + (b ^ 2 - 2 * a * c) * (c0 * c2 ^ 2) - c * c1 ^ 3 + (a * c) * (c1 ^ 2 * c2) -
        (b * c) * (c1 * c2 ^ 2) + c0 ^ 3 by unfold nm; ring]
      refine ((((((((hA.mul ((h0.pow2 le_rfl).mul h1 le_rfl) ?_).neg.add (k2.mul ((h0.pow2 le_rfl).mul h2 le_rfl) ?_)).add
        (hB.mul (h0.mul (h1.pow2 le_rfl) le_rfl) ?_)).add (k3.mul (h0.mul (h1.mul h2 le_rfl) le_rfl) ?_)).add
        (k4.mul (h0.mul (h2.pow2 le_rfl) le_rfl) ?_)).sub (hC.mul (h1.pow3 le_rfl) ?_)).add
        (kac.mul ((h1.pow2 le_rfl).mul h2 le_rfl) ?_)).sub (kbc.mul (h1.mul (h2.pow2 le_rfl) le_rfl) ?_)).add
        (h0.pow3 ?_) <;> omega
    have e : nm a b c c0 c1 c2 = (nm a b c c0 c1 c2 - c ^ 2 * c2 ^ 3) + c ^ 2 * c2 ^ 3 := by ring
    refine ⟨?_, ?_⟩
    · have hC' := hC.mono (w := 3 * (2 : ℕ)) (by norm_num)
      have ht := (kcc.mono (w := 3 * (4 : ℕ)) (by norm_num)).top (h2.pow3 (u := 3 * (3 * k : ℕ)) (by push_cast; omega))
      have hcc : (c ^ 2).coeff 4 = 1 := by rw [sq, hC'.top hC', hc.ctop]; ring
      rw [e, coeff_add, hr _ (by push_cast; omega), zero_add, add_comm (3 * k) 4, ht, hcc, h2.top3 (t2 k rfl), one_mul]
    · rw [e]; exact (hr.mono (by omega)).add (kcc.mul (h2.pow3 le_rfl) (by omega))

end Eclib.Ff
