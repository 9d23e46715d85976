import Verif.Mat.FLV
import Verif.Mat.EchZProps

/-!
# Theorems about matrix arithmetic, characteristic polynomial and determinant (C20)
-/

namespace Eclib.Mat

open Svec (T smod sxmod sxmodmul sdiv sgcd)

namespace Props

/-- a matrix of the model as a matrix of Mathlib -/
def toMat (nr nc : Nat) (m : M) : Matrix (Fin nr) (Fin nc) ℤ := Matrix.of fun i j => m.get i j

/-- the sizes of a matrix -/
structure Dim (n k : Nat) (m : M) : Prop where
  nr : m.nr = n
  nc : m.nc = k
  len : ∀ r ∈ m.rows, r.length = k

theorem Dim.rect {nr nc : Nat} {m : M} (h : Dim nr nc m) : Rect m := fun r hr => by
  rw [h.nc]; exact h.len r hr

theorem dim_ofFn (nr nc : Nat) (f : Nat → Nat → Int) : Dim nr nc (M.ofFn nr nc f) := by
  refine ⟨by simp [M.nr, M.ofFn], rfl, fun r hr => ?_⟩
  obtain ⟨i, -, rfl⟩ := List.mem_map.1 hr
  simp

theorem foldl_add (f : Nat → ℤ) : ∀ (n : Nat) (s : ℤ),
    (List.range n).foldl (fun s k => f k + s) s = s + ∑ k ∈ Finset.range n, f k
  | 0, s => by simp
  | n + 1, s => by
    rw [List.range_succ, List.foldl_append, foldl_add f n s, Finset.sum_range_succ]
    simp only [List.foldl_cons, List.foldl_nil]
    ring

theorem toMat_mul {n k l : Nat} {a b : M} (ha : Dim n k a) (hb : Dim k l b) :
    toMat n l (mul a b) = toMat n k a * toMat k l b ∧ Dim n l (mul a b) := by
  have h : a.nc = b.nr := by rw [ha.nc, hb.nr]
  unfold mul
  rw [if_pos h, ha.nr, hb.nc]
  refine ⟨?_, dim_ofFn _ _ _⟩
  ext i j
  rw [Matrix.mul_apply, toMat, Matrix.of_apply, M.get_ofFn i.2 j.2, foldl_add, zero_add, ha.nc, ← Fin.sum_univ_eq_sum_range]
  rfl

theorem getD_map_smul (c : ℤ) (a : M) (i j : Nat) : (smul c a).get i j = c * a.get i j := by
  unfold M.get smul
  simp only
  have h : (a.rows.map (·.map (c * ·))).getD i [] = (a.rows.getD i []).map (c * ·) := by
    by_cases hi : i < a.rows.length
    · rw [List.getD_eq_getElem _ _ (by simpa using hi), List.getD_eq_getElem _ _ hi, List.getElem_map]
    · rw [List.getD_eq_default _ _ (by simpa using hi), List.getD_eq_default _ _ (by omega)]; rfl
  rw [h, getD_map_zero (f := (c * ·)) (mul_zero c)]

theorem toMat_smul {n k : Nat} (c : ℤ) {a : M} (ha : Dim n k a) :
    toMat n k (smul c a) = c • toMat n k a ∧ Dim n k (smul c a) := by
  refine ⟨?_, ?_⟩
  · ext i j
    rw [Matrix.smul_apply, toMat, toMat, Matrix.of_apply, Matrix.of_apply, getD_map_smul, smul_eq_mul]
  · refine ⟨by simpa [M.nr, smul] using ha.nr, ha.nc, fun r hr => ?_⟩
    obtain ⟨x, hx, rfl⟩ := List.mem_map.1 hr
    rw [List.length_map]; exact ha.len x hx

theorem toMat_scalar (n : Nat) (c : ℤ) :
    toMat n n (scalarMat n c) = c • (1 : Matrix (Fin n) (Fin n) ℤ) ∧ Dim n n (scalarMat n c) := by
  refine ⟨?_, dim_ofFn _ _ _⟩
  ext i j
  rw [toMat, Matrix.of_apply, scalarMat, M.get_ofFn i.2 j.2, Matrix.smul_apply, Matrix.one_apply, smul_eq_mul]
  simp [Fin.ext_iff]

theorem Dim.getElem {n k : Nat} {a : M} (ha : Dim n k a) {i j : Nat} (hi : i < n) (hj : j < k) :
    ∃ (h1 : i < a.rows.length) (h2 : j < a.rows[i].length), a.get i j = a.rows[i][j] := by
  have h1 : i < a.rows.length := by rw [show a.rows.length = n from ha.nr]; exact hi
  have h2 : j < a.rows[i].length := by rw [ha.len _ (List.getElem_mem h1)]; exact hj
  refine ⟨h1, h2, ?_⟩
  unfold M.get
  rw [List.getD_eq_getElem _ _ h1, List.getD_eq_getElem _ _ h2]

theorem zip_get (f : ℤ → ℤ → ℤ) {n k : Nat} {a b : M} (ha : Dim n k a) (hb : Dim n k b) :
    Dim n k ⟨a.nc, List.zipWith (List.zipWith f) a.rows b.rows⟩ ∧
    ∀ i < n, ∀ j < k, M.get ⟨a.nc, List.zipWith (List.zipWith f) a.rows b.rows⟩ i j = f (a.get i j) (b.get i j) := by
  have hd : Dim n k ⟨a.nc, List.zipWith (List.zipWith f) a.rows b.rows⟩ := by
    refine ⟨?_, ha.nc, fun r hr => ?_⟩
    · have h1 : a.rows.length = n := ha.nr
      have h2 : b.rows.length = n := hb.nr
      simp [M.nr, h1, h2]
    · obtain ⟨i, hi, rfl⟩ := List.mem_iff_getElem.1 hr
      rw [List.getElem_zipWith, List.length_zipWith, ha.len _ (List.getElem_mem _),
        hb.len _ (List.getElem_mem _)]
      simp
  refine ⟨hd, fun i hi j hj => ?_⟩
  obtain ⟨h1, h2, h3⟩ := hd.getElem hi hj
  obtain ⟨a1, a2, a3⟩ := ha.getElem hi hj
  obtain ⟨b1, b2, b3⟩ := hb.getElem hi hj
  rw [h3, a3, b3]
  simp only [List.getElem_zipWith]

theorem toMat_sub {n k : Nat} {a b : M} (ha : Dim n k a) (hb : Dim n k b) :
    toMat n k (sub a b) = toMat n k a - toMat n k b ∧ Dim n k (sub a b) := by
  obtain ⟨h1, h2⟩ := zip_get (· - ·) ha hb
  refine ⟨?_, h1⟩
  ext i j
  exact h2 i i.2 j j.2

theorem toMat_add {n k : Nat} {a b : M} (ha : Dim n k a) (hb : Dim n k b) :
    toMat n k (add a b) = toMat n k a + toMat n k b ∧ Dim n k (add a b) := by
  obtain ⟨h1, h2⟩ := zip_get (· + ·) ha hb
  refine ⟨?_, h1⟩
  ext i j
  exact h2 i i.2 j j.2

theorem trace_eq {n : Nat} {a : M} (ha : Dim n n a) : trace a = (toMat n n a).trace := by
  unfold trace
  rw [ha.nr, Matrix.trace, show (fun (s : ℤ) (i : ℕ) => s + a.get i i) = fun s i => a.get i i + s from by
    funext s i; ring, foldl_add, zero_add, ← Fin.sum_univ_eq_sum_range]
  rfl

theorem sdiv_mul (t : T) {x d : ℤ} (hd : d ≠ 0) : sdiv t (d * x) d = x := by
  have h := sdiv_exact t (Dvd.intro x rfl : d ∣ d * x)
  rw [mul_comm d x] at h
  exact mul_right_cancel₀ hd (by rw [mul_comm d x]; exact h)

/-- the state of the loop of `charpoly` after the coefficient of index `n-1-i` has been found -/
def CInv (n : Nat) (a : M) (i : Nat) (S : M × Int × List Int) : Prop :=
  Dim n n S.1 ∧ toMat n n S.1 = toMat n n a * flv (toMat n n a) i ∧
  S.2.1 = -(toMat n n a).charpoly.coeff (n - 1 - i) ∧
  S.2.2 = (List.range' (n - 1 - i) (i + 2)).map (toMat n n a).charpoly.coeff

theorem charpoly_coeff_n {n : Nat} (A : Matrix (Fin n) (Fin n) ℤ) : A.charpoly.coeff n = 1 := by
  have h := A.charpoly_monic.coeff_natDegree
  rwa [A.charpoly_natDegree_eq_dim, Fintype.card_fin] at h

theorem cinv_init {n : Nat} {a : M} (ha : Dim n n a) (hn : 0 < n) : CInv n a 0 (a, trace a, [-trace a, 1]) := by
  have h : trace a = -(toMat n n a).charpoly.coeff (n - 1) := by
    rw [trace_eq ha]
    have := trace_mul_flv_int (toMat n n a) hn
    simpa [flv] using this
  refine ⟨ha, by simp [flv], h, ?_⟩
  obtain ⟨k, rfl⟩ : ∃ k, n = k + 1 := ⟨n - 1, by omega⟩
  have h1 := charpoly_coeff_n (toMat (k + 1) (k + 1) a)
  simp only [h, neg_neg, Nat.add_sub_cancel, Nat.sub_zero, List.range'_succ, List.map_cons, h1]
  rfl

/-- the step keeps the invariant, and its division is exact -/
theorem cinv_step {n : Nat} (t : T) {a : M} (ha : Dim n n a) {i : Nat} {S : M × Int × List Int}
    (h : CInv n a i S) (hi : i + 1 < n) : CInv n a (i + 1) (charStep t a S (i + 2)) ∧
    ((i + 2 : ℕ) : ℤ) ∣ trace (charStep t a S (i + 2)).1 := by
  obtain ⟨hd, hB, ht, hl⟩ := h
  have hs := toMat_scalar n 1
  have hs2 := toMat_smul S.2.1 hs.2
  have hsub := toMat_sub hd hs2.2
  have hmul := toMat_mul ha hsub.2
  have e1 : toMat n n (mul a (sub S.1 (smul S.2.1 (scalarMat a.nr 1)))) =
      toMat n n a * flv (toMat n n a) (i + 1) := by
    rw [ha.nr, hmul.1, hsub.1, hs2.1, hs.1, hB, ht, flv]
    simp only [one_smul, neg_smul, sub_neg_eq_add]
  have e2 : Dim n n (mul a (sub S.1 (smul S.2.1 (scalarMat a.nr 1)))) := by rw [ha.nr]; exact hmul.2
  have e3 : trace (mul a (sub S.1 (smul S.2.1 (scalarMat a.nr 1)))) =
      ((i + 2 : ℕ) : ℤ) * -(toMat n n a).charpoly.coeff (n - 1 - (i + 1)) := by
    rw [trace_eq e2, e1, trace_mul_flv_int _ hi]; push_cast; ring
  refine ⟨⟨e2, e1, ?_, ?_⟩, ?_⟩
  · simp only [charStep]
    rw [e3, sdiv_mul t (by positivity)]
  · simp only [charStep]
    rw [e3, sdiv_mul t (by positivity), hl, neg_neg]
    have e4 : List.range' (n - 1 - (i + 1)) (i + 1 + 2) =
        (n - 1 - (i + 1)) :: List.range' (n - 1 - i) (i + 2) := by
      rw [show i + 1 + 2 = (i + 2) + 1 by ring, List.range'_succ,
        show n - 1 - (i + 1) + 1 = n - 1 - i by omega]
    rw [e4, List.map_cons]
  · simp only [charStep]
    rw [e3]
    exact Dvd.intro _ rfl

theorem cinv_loop {n : Nat} (t : T) {a : M} (ha : Dim n n a) : ∀ (k i : Nat) (S : M × Int × List Int),
    CInv n a i S → i + k < n → CInv n a (i + k) ((List.range' (i + 2) k).foldl (charStep t a) S)
  | 0, i, S, h, _ => h
  | k + 1, i, S, h, hk => by
    rw [List.range'_succ, List.foldl_cons]
    have := cinv_loop t ha k (i + 1) _ (cinv_step t ha h (by omega)).1 (by omega)
    rwa [show i + 1 + k = i + (k + 1) by ring] at this

/-- **C20 (characteristic polynomial).** For a square matrix of size `n ≥ 1`, `charpoly` returns the `n+1`
coefficients of `det(X - m)`, from the constant one to the leading one. -/
theorem C20_charpoly (t : T) {n : Nat} (hn : 0 < n) {a : M} (ha : Dim n n a) :
    charpoly t a = some ((List.range (n + 1)).map (toMat n n a).charpoly.coeff) := by
  unfold charpoly
  rw [if_neg (by rw [ha.nr]; omega), ha.nr]
  have h := cinv_loop t ha (n - 1) 0 _ (cinv_init ha hn) (by omega)
  simp only [zero_add] at h
  simp only
  rw [h.2.2.2]
  rw [show n - 1 - (n - 1) = 0 by omega, show n - 1 + 2 = n + 1 by omega, List.range_eq_range']

/-- **C20 (exact divisions).** The division of the trace in each round of `charpoly` is exact. -/
theorem C20_charpoly_exact (t : T) {n : Nat} {a : M} (ha : Dim n n a) {k : Nat} (hk : k + 1 < n) :
    ((k + 2 : ℕ) : ℤ) ∣
      trace ((List.range' 2 (k + 1)).foldl (charStep t a) (a, trace a, [-trace a, 1])).1 := by
  have h := cinv_loop t ha k 0 _ (cinv_init ha (by omega)) (by omega)
  rw [List.range'_concat, List.foldl_append]
  simp only [zero_add] at h
  rw [List.foldl_cons, List.foldl_nil, show 2 + 1 * k = k + 2 by ring]
  exact (cinv_step t ha h hk).2

/-- **C20 (determinant).** `determinant` of a square matrix of size `n ≥ 1` is its determinant. -/
theorem C20_determinant (t : T) {n : Nat} (hn : 0 < n) {a : M} (ha : Dim n n a) :
    determinant t a = some (toMat n n a).det := by
  unfold determinant
  rw [C20_charpoly t hn ha, Option.map_some, ha.nr, Matrix.det_eq_sign_charpoly_coeff, Fintype.card_fin]
  simp only [List.range_succ_eq_map, List.map_cons, List.headD_cons]
  congr 1
  split_ifs with h
  · rw [Odd.neg_one_pow (Nat.odd_iff.2 h)]; ring
  · rw [Even.neg_one_pow (Nat.even_iff.2 (by omega))]; ring

/-- Hypotheses met: a 3 × 3 matrix. -/
example : Dim 3 3 ⟨3, [[1, 2, 3], [4, 5, 6], [7, 8, 10]]⟩ ∧
    charpoly .long ⟨3, [[1, 2, 3], [4, 5, 6], [7, 8, 10]]⟩ = some [3, -12, -16, 1] ∧
    determinant .big ⟨3, [[1, 2, 3], [4, 5, 6], [7, 8, 10]]⟩ = some (-3) := by
  refine ⟨⟨rfl, rfl, by decide⟩, by decide +kernel, by decide +kernel⟩

/-- **C20 (size 0).** For the matrix of size 0 the code writes before the start of the coefficient list. -/
theorem C20_charpoly_empty (t : T) : charpoly t ⟨0, []⟩ = none := rfl

end Props

end Eclib.Mat
