import Verif.Mat.CharProps

/-!
# Theorems about subspaces: combining, restricting, eigenspaces (C21)
-/

namespace Eclib.Mat

open Svec (T smod sxmod sxmodmul sdiv sgcd)
open Matrix

namespace Props

/-- a matrix of the model over a field -/
def toMatF (F : Type) [Field F] (nr nc : Nat) (m : M) : Matrix (Fin nr) (Fin nc) F :=
  Matrix.of fun i j => ((m.get i j : ℤ) : F)

/-- What a `subspace` of dimension `k` of `F^n` is: an `n × k` basis matrix whose rows `pivots` are the
non-zero number `denom` times the identity matrix. -/
structure SubOK (F : Type) [Field F] (n k : Nat) (s : Sub) : Prop where
  dim : Dim n k s.basis
  plen : s.pivots.length = k
  plt : ∀ i < k, s.pivots.getD i 0 < n
  block : ∀ i < k, ∀ j < k, ((s.basis.get (s.pivots.getD i 0) j : ℤ) : F) = if i = j then (s.denom : F) else 0
  denom : (s.denom : F) ≠ 0

/-- the vectors of a subspace: the combinations of the columns of the basis -/
def InSub (F : Type) [Field F] (n k : Nat) (s : Sub) (v : Fin n → F) : Prop :=
  ∃ x : Fin k → F, v = (toMatF F n k s.basis) *ᵥ x

section

variable {F : Type} [Field F] {n k l : Nat}

/-- the pivots as a map -/
def SubOK.piv {s : Sub} (h : SubOK F n k s) (i : Fin k) : Fin n := ⟨s.pivots.getD i 0, h.plt i i.2⟩

theorem SubOK.blockMat {s : Sub} (h : SubOK F n k s) :
    (toMatF F n k s.basis).submatrix h.piv id = (s.denom : F) • (1 : Matrix (Fin k) (Fin k) F) := by
  ext i j
  rw [submatrix_apply, Matrix.smul_apply, one_apply, toMatF, of_apply]
  have := h.block i i.2 j j.2
  simp only [SubOK.piv, id]
  rw [this]
  simp [Fin.ext_iff]

/-- coordinates with respect to the basis are unique -/
theorem SubOK.inj {s : Sub} (h : SubOK F n k s) {x y : Fin k → F}
    (hxy : toMatF F n k s.basis *ᵥ x = toMatF F n k s.basis *ᵥ y) : x = y := by
  have e : ∀ x : Fin k → F, ((toMatF F n k s.basis).submatrix h.piv id) *ᵥ x =
      fun i => (toMatF F n k s.basis *ᵥ x) (h.piv i) := by
    intro x; rfl
  have h1 := e x
  have h2 := e y
  rw [hxy, ← h2, h.blockMat, smul_mulVec, smul_mulVec, one_mulVec, one_mulVec] at h1
  exact smul_right_injective _ h.denom h1

theorem restrict_core {B : Matrix (Fin n) (Fin k) F} {A : Matrix (Fin n) (Fin n) F} {A' : Matrix (Fin k) (Fin k) F}
    {piv : Fin k → Fin n} {d : F} (hB : B.submatrix piv id = d • (1 : Matrix (Fin k) (Fin k) F))
    (hinv : A * B = B * A') : d • (A * B) = B * (A.submatrix piv id * B) := by
  have h1 : A.submatrix piv id * B = (A * B).submatrix piv id := by
    ext i j; rfl
  have h2 : (B * A').submatrix piv id = B.submatrix piv id * A' := by
    ext i j; rfl
  rw [h1, hinv, h2, hB, Matrix.smul_mul, Matrix.one_mul, Matrix.mul_smul]

/-- a subspace is invariant under a matrix: the image of every column of the basis is in the subspace -/
def Invariant (F : Type) [Field F] (n k : Nat) (m : M) (s : Sub) : Prop :=
  ∀ v, InSub F n k s v → InSub F n k s (toMatF F n n m *ᵥ v)

theorem Invariant.matrix {m : M} {s : Sub} (h : Invariant F n k m s) :
    ∃ A' : Matrix (Fin k) (Fin k) F, toMatF F n n m * toMatF F n k s.basis = toMatF F n k s.basis * A' := by
  have key : ∀ j : Fin k, ∃ x : Fin k → F,
      toMatF F n n m *ᵥ (toMatF F n k s.basis).col j = toMatF F n k s.basis *ᵥ x := fun j =>
    h _ ⟨Pi.single j 1, by rw [mulVec_single_one]⟩
  choose x hx using key
  refine ⟨Matrix.of fun i j => x j i, ?_⟩
  ext i j
  exact congrFun (hx j) i

theorem toMatF_rowsubmat {m : M} {s : Sub} (hm : Dim n n m) (hs : SubOK F n k s) :
    toMatF F k n (rowsubmat m s.pivots) = (toMatF F n n m).submatrix hs.piv id ∧
    Dim k n (rowsubmat m s.pivots) := by
  refine ⟨?_, ?_⟩
  · ext i j
    simp only [submatrix_apply, toMatF, of_apply, M.get, rowsubmat, SubOK.piv, id]
    have hi : (i : Nat) < s.pivots.length := by rw [hs.plen]; exact i.2
    rw [List.getD_eq_getElem (s.pivots.map _) _ (by simpa using hi), List.getElem_map,
      List.getD_eq_getElem s.pivots _ hi]
  · refine ⟨by simp [M.nr, rowsubmat, hs.plen], hm.nc, fun r hr => ?_⟩
    obtain ⟨i, hi, rfl⟩ := List.mem_map.1 hr
    obtain ⟨j, hj, rfl⟩ := List.mem_iff_getElem.1 hi
    have h1 := hs.plt j (by rw [← hs.plen]; exact hj)
    rw [List.getD_eq_getElem _ _ hj] at h1
    have h2 : s.pivots[j] < m.rows.length := by rw [show m.rows.length = n from hm.nr]; exact h1
    rw [List.getD_eq_getElem _ _ h2]
    exact hm.len _ (List.getElem_mem h2)

theorem toMatF_of {a : M} : toMatF F n k a = (toMat n k a).map (Int.castRingHom F) := by
  ext i j; rfl

theorem toMatF_mul {a b : M} (ha : Dim n k a) (hb : Dim k l b) :
    toMatF F n l (mul a b) = toMatF F n k a * toMatF F k l b ∧ Dim n l (mul a b) := by
  obtain ⟨h1, h2⟩ := toMat_mul ha hb
  exact ⟨by rw [toMatF_of, toMatF_of, toMatF_of, h1, Matrix.map_mul], h2⟩

theorem toMatF_addscalar {a : M} (ha : Dim n n a) (c : ℤ) :
    toMatF F n n (addscalar a c) = toMatF F n n a + (c : F) • (1 : Matrix (Fin n) (Fin n) F) ∧
    Dim n n (addscalar a c) := by
  unfold addscalar
  rw [ha.nr]
  obtain ⟨s1, s2⟩ := toMat_scalar n c
  obtain ⟨h1, h2⟩ := toMat_add ha s2
  refine ⟨?_, h2⟩
  rw [toMatF_of, toMatF_of, h1, s1]
  ext i j
  simp only [Matrix.map_apply, Matrix.add_apply, Matrix.smul_apply, one_apply, smul_eq_mul]
  split_ifs <;> simp

theorem isNull_mulVec {m : M} (hm : Dim l n m) (v : Fin n → F) :
    IsNull F n m.rows v ↔ toMatF F l n m *ᵥ v = 0 := by
  constructor
  · intro h
    funext i
    have hi : (i : Nat) < m.rows.length := by rw [show m.rows.length = l from hm.nr]; exact i.2
    have := h _ (List.getElem_mem hi)
    rw [Pi.zero_apply, ← this]
    change ∑ j : Fin n, toMatF F l n m i j * v j = _
    refine Finset.sum_congr rfl fun j _ => ?_
    simp only [toMatF, of_apply, M.get, ent]
    rw [List.getD_eq_getElem _ _ hi]
  · intro h r hr
    obtain ⟨i, hi, rfl⟩ := List.mem_iff_getElem.1 hr
    have := congrFun h ⟨i, by rw [← hm.nr]; exact hi⟩
    rw [Pi.zero_apply] at this
    rw [← this]
    change _ = ∑ j : Fin n, toMatF F l n m _ j * v j
    refine Finset.sum_congr rfl fun j _ => ?_
    simp only [toMatF, of_apply, M.get, ent]
    rw [List.getD_eq_getElem _ _ hi]

/-- a kernel basis is a subspace, and its vectors are the null vectors -/
theorem subOK_of_kernel {m : M} {s : Sub} (hm : Dim l n m) (hd : (s.denom : F) ≠ 0)
    (hB : Dim n s.pivots.length s.basis) (hp : ∀ c ∈ s.pivots, c < n)
    (h : IsKernelBasis F n m.rows s.denom s.pivots s.basis) :
    SubOK F n s.pivots.length s ∧
    ∀ v, InSub F n s.pivots.length s v ↔ toMatF F l n m *ᵥ v = 0 := by
  refine ⟨⟨hB, rfl, fun i hi => ?_, h.block, hd⟩, fun v => ?_⟩
  · rw [List.getD_eq_getElem _ _ hi]; exact hp _ (List.getElem_mem hi)
  · rw [← isNull_mulVec hm]
    constructor
    · rintro ⟨x, rfl⟩
      rw [isNull_mulVec hm, mulVec_mulVec]
      have h0 : toMatF F l n m * toMatF F n s.pivots.length s.basis = 0 := by
        ext i j
        exact congrFun ((isNull_mulVec hm _).1 (h.null j j.2)) i
      rw [h0, zero_mulVec]
    · intro hv
      obtain ⟨x, hx, -⟩ := h.complete v hv
      refine ⟨x, ?_⟩
      funext i
      rw [hx i]
      refine Finset.sum_congr rfl fun j _ => ?_
      simp only [toMatF, of_apply]
      ring

end

/-! ### over ℚ -/

variable {n k l : Nat}

/-- a subspace over ℚ as the code builds it: the pivots increase, and the whole space has denominator 1
and the identity matrix as basis -/
structure SubQ (n k : Nat) (s : Sub) : Prop extends SubOK ℚ n k s where
  pos : 0 < s.denom
  sorted : s.pivots.Pairwise (· < ·)
  full : k = n → s.denom = 1

/-- increasing pivots of a full subspace are all the indices -/
theorem sorted_full : ∀ {l : List Nat} {n : Nat}, l.Pairwise (· < ·) → l.length = n → (∀ c ∈ l, c < n) →
    ∀ i < n, l.getD i 0 = i := by
  intro l n hs hl hlt i hi
  have hr : l = List.range n := by
    refine List.Perm.eq_of_pairwise' hs List.pairwise_lt_range ?_
    refine (List.subperm_of_subset hs.nodup fun c hc => List.mem_range.2 (hlt c hc)).perm_of_length_le ?_
    simp [hl]
  rw [hr, List.getD_eq_getElem _ _ (by simpa using hi), List.getElem_range]

/-- the whole space has the identity as basis matrix -/
theorem SubQ.basis_full {s : Sub} (h : SubQ n n s) : toMatF ℚ n n s.basis = 1 := by
  have hp : ∀ i < n, s.pivots.getD i 0 = i := sorted_full h.sorted h.plen fun c hc => by
    obtain ⟨i, hi, rfl⟩ := List.mem_iff_getElem.1 hc
    have := h.plt i (by rw [← h.plen]; exact hi)
    rwa [List.getD_eq_getElem _ _ hi] at this
  ext i j
  have := h.block i i.2 j j.2
  rw [hp i i.2, h.full rfl] at this
  rw [toMatF, of_apply, this, one_apply]
  simp [Fin.ext_iff]

theorem echelon_nil (t : T) (m : M) (h : (echelon0 t m).1.pc = []) : (echelon0 t m).2 = 1 := by
  unfold echelon0 at h ⊢
  simp only at h ⊢
  split_ifs with h1
  · rw [if_pos h1] at h
    simp only at h ⊢
    rw [h]; simp
  · rfl

theorem dim_kernel (t : T) (m : M) : Dim m.nc (kernel t m).pivots.length (kernel t m).basis := by
  unfold kernel
  exact dim_ofFn _ _ _

/-- `kernel` gives a subspace as the code expects it -/
theorem kernel_subQ (t : T) {m : M} (hm : Dim l n m) : SubQ n (kernel t m).pivots.length (kernel t m) ∧
    ∀ v, InSub ℚ n (kernel t m).pivots.length (kernel t m) v ↔ toMatF ℚ l n m *ᵥ v = 0 := by
  obtain ⟨hd, hr, hspan, hnp, -, hlen, -⟩ := C19_echelon t m hm.rect
  obtain ⟨h1, h2⟩ := C19_kernel t m hm.rect
  have hpv : (kernel t m).pivots = nonPivots n (echelon0 t m).1.pc := by
    rw [← hm.nc]; exact hnp
  rw [hm.nc] at h2
  obtain ⟨h3, h4⟩ := subOK_of_kernel hm (by exact_mod_cast h1.ne') (by rw [← hm.nc]; exact dim_kernel t m)
    (fun c hc => by
      rw [hpv] at hc
      exact List.mem_range.1 (List.mem_of_mem_filter hc)) h2
  refine ⟨⟨h3, h1, ?_, fun hf => ?_⟩, h4⟩
  · rw [hpv]; exact List.pairwise_lt_range.filter _
  · refine echelon_nil t m ?_
    have e : (kernel t m).pivots.length = (echelon0 t m).1.npc.length := rfl
    rw [hm.nc] at hlen
    exact List.length_eq_zero_iff.1 (by omega)

/-- **C21 (restriction).** If the subspace `S` is invariant under `M`, the matrix `A = restrict_mat(M,S)`
satisfies `denom*M*B = B*A` for the basis matrix `B`. -/
theorem C21_restrict_mat {m : M} {s : Sub} (hm : Dim n n m) (hs : SubQ n k s) (hinv : Invariant ℚ n k m s) :
    Dim k k (restrictMat m s) ∧
    (s.denom : ℚ) • (toMatF ℚ n n m * toMatF ℚ n k s.basis) =
      toMatF ℚ n k s.basis * toMatF ℚ k k (restrictMat m s) := by
  unfold restrictMat
  rw [hs.dim.nc, hm.nr]
  split_ifs with h
  · subst h
    refine ⟨hm, ?_⟩
    rw [hs.basis_full, hs.full rfl]
    simp
  · obtain ⟨A', hA'⟩ := hinv.matrix
    obtain ⟨r1, r2⟩ := toMatF_rowsubmat hm hs.toSubOK
    obtain ⟨m1, m2⟩ := toMatF_mul (F := ℚ) r2 hs.dim
    refine ⟨m2, ?_⟩
    rw [m1, r1]
    exact restrict_core hs.toSubOK.blockMat hA'

/-- **C21 (restriction to the whole space).** The shortcut of `restrict_mat` for a subspace of full dimension
relies on the denominator being 1: with basis `2*I` and denominator 2 it returns `M`, and `denom*M*B = B*A`
fails. -/
theorem C21_restrict_full_counterexample :
    let s : Sub := ⟨2, [0, 1], ⟨2, [[2, 0], [0, 2]]⟩⟩
    let m : M := ⟨2, [[1, 1], [0, 1]]⟩
    SubOK ℚ 2 2 s ∧ Invariant ℚ 2 2 m s ∧
    (s.denom : ℚ) • (toMatF ℚ 2 2 m * toMatF ℚ 2 2 s.basis) ≠
      toMatF ℚ 2 2 s.basis * toMatF ℚ 2 2 (restrictMat m s) := by
  intro s m
  have hB : toMatF ℚ 2 2 s.basis = (2 : ℚ) • (1 : Matrix (Fin 2) (Fin 2) ℚ) := by
    ext i j
    fin_cases i <;> fin_cases j <;> simp [toMatF, s, M.get]
  refine ⟨⟨⟨rfl, rfl, by simp [s]⟩, rfl, by decide, ?_, by norm_num [s]⟩, ?_, ?_⟩
  · intro i hi j hj
    interval_cases i <;> interval_cases j <;> simp [s, M.get]
  · rintro v -
    refine ⟨(2 : ℚ)⁻¹ • (toMatF ℚ 2 2 m *ᵥ v), ?_⟩
    rw [hB, smul_mulVec, one_mulVec, smul_smul]
    norm_num
  · intro h
    have := congrFun (congrFun h 0) 0
    rw [hB] at this
    simp [toMatF, s, m, M.get, restrictMat, M.nr] at this

theorem get_map_map (f : ℤ → ℤ) (hf : f 0 = 0) (b : M) (i j : Nat) :
    M.get ⟨b.nc, b.rows.map (·.map f)⟩ i j = f (b.get i j) := by
  unfold M.get
  simp only
  have h : (b.rows.map (·.map f)).getD i [] = (b.rows.getD i []).map f := by
    by_cases hi : i < b.rows.length
    · rw [List.getD_eq_getElem _ _ (by simpa using hi), List.getD_eq_getElem _ _ hi, List.getElem_map]
    · rw [List.getD_eq_default _ _ (by simpa using hi), List.getD_eq_default _ _ (by omega)]; rfl
  rw [h, getD_map_zero hf]

theorem content_get (t : T) (b : M) (i j : Nat) : content t b ∣ b.get i j := by
  unfold M.get
  by_cases hi : i < b.rows.length
  · rw [List.getD_eq_getElem _ _ hi]
    refine dvd_getD (fun x hx => ?_) j
    exact (content_dvd t _ 0 (le_refl 0)).2.2 x (List.mem_flatten.2 ⟨_, List.getElem_mem hi, hx⟩)
  · rw [List.getD_eq_default b.rows _ (by omega)]; simp

/-- the content of a matrix `d*I` divides `d`; conversely a number dividing all entries divides the content -/
theorem dvd_content (t : T) : ∀ (l : List ℤ) (g c : ℤ), c ∣ g → (∀ x ∈ l, c ∣ x) → c ∣ l.foldl (sgcd t) g
  | [], g, c, h, _ => h
  | x :: l, g, c, h, hl => by
    obtain ⟨-, -, -, h3⟩ := Svec.Props.sgcd_spec t g x
    exact dvd_content t l _ c (h3 c h (hl x List.mem_cons_self)) fun y hy => hl y (List.mem_cons_of_mem _ hy)

/-- the pivots of `combine` -/
theorem combine_pivots {s1 s2 : Sub} {F : Type} [Field F] (h1 : SubOK F n k s1) (h2 : SubOK F k l s2) :
    (s2.pivots.map fun i => s1.pivots.getD i 0).length = l ∧
    (∀ i < l, (s2.pivots.map fun i => s1.pivots.getD i 0).getD i 0 = s1.pivots.getD (s2.pivots.getD i 0) 0) ∧
    (∀ i < l, (s2.pivots.map fun i => s1.pivots.getD i 0).getD i 0 < n) := by
  have e : ∀ i < l, (s2.pivots.map fun i => s1.pivots.getD i 0).getD i 0 =
      s1.pivots.getD (s2.pivots.getD i 0) 0 := by
    intro i hi
    have hi' : i < s2.pivots.length := by rw [h2.plen]; exact hi
    rw [List.getD_eq_getElem (s2.pivots.map _) _ (by simpa using hi'), List.getElem_map,
      List.getD_eq_getElem s2.pivots _ hi']
  refine ⟨by rw [List.length_map, h2.plen], e, fun i hi => ?_⟩
  rw [e i hi]
  exact h1.plt _ (h2.plt i hi)

theorem combine_block {s1 s2 : Sub} {F : Type} [Field F] (h1 : SubOK F n k s1) (h2 : SubOK F k l s2) :
    ∀ i < l, ∀ j (hj : j < l), ∀ hp : s1.pivots.getD (s2.pivots.getD i 0) 0 < n,
    (toMatF F n k s1.basis * toMatF F k l s2.basis) ⟨s1.pivots.getD (s2.pivots.getD i 0) 0, hp⟩ ⟨j, hj⟩ =
      if i = j then ((s1.denom * s2.denom : ℤ) : F) else 0 := by
  intro i hi j hj hp
  rw [Matrix.mul_apply, Finset.sum_eq_single ⟨s2.pivots.getD i 0, h2.plt i hi⟩]
  · simp only [toMatF, of_apply]
    rw [h1.block _ (h2.plt i hi) _ (h2.plt i hi), h2.block i hi j hj, if_pos rfl]
    split_ifs <;> simp
  · intro b _ hb
    simp only [toMatF, of_apply]
    rw [h1.block _ (h2.plt i hi) b b.2, if_neg, zero_mul]
    intro he
    exact hb (Fin.ext he.symm)
  · intro hh; exact absurd (Finset.mem_univ _) hh

theorem getD_lt_of_sorted {l : List Nat} (h : l.Pairwise (· < ·)) {i j : Nat} (hij : i < j) (hj : j < l.length) :
    l.getD i 0 < l.getD j 0 := by
  rw [List.getD_eq_getElem _ _ hj, List.getD_eq_getElem _ _ (hij.trans hj)]
  exact List.pairwise_iff_getElem.1 h i j _ _ hij

theorem combine_sorted {s1 s2 : Sub} (h1 : s1.pivots.Pairwise (· < ·)) (h2 : s2.pivots.Pairwise (· < ·))
    (hlt : ∀ c ∈ s2.pivots, c < s1.pivots.length) :
    (s2.pivots.map fun i => s1.pivots.getD i 0).Pairwise (· < ·) := by
  rw [List.pairwise_map]
  refine h2.imp_of_mem fun {a b} ha hb hab => ?_
  exact getD_lt_of_sorted h1 hab (hlt b hb)

theorem SubOK.mem_lt {s : Sub} {F : Type} [Field F] (h : SubOK F n k s) : ∀ c ∈ s.pivots, c < n := by
  intro c hc
  obtain ⟨i, hi, rfl⟩ := List.mem_iff_getElem.1 hc
  have := h.plt i (by rw [← h.plen]; exact hi)
  rwa [List.getD_eq_getElem _ _ hi] at this

/-- **C21 (combining).** If `s1` is a subspace of ℚⁿ of dimension `k` and `s2` a subspace of ℚᵏ, `combine(s1,s2)`
is the subspace of ℚⁿ of the combinations of the basis of `s1` with coefficients in `s2`; its basis is
proportional to the product of the bases with composed pivots. -/
theorem C21_combine (t : T) {s1 s2 : Sub} (h1 : SubQ n k s1) (h2 : SubQ k l s2) :
    SubQ n l (combine t s1 s2) ∧
    ((combine t s1 s2).pivots = s2.pivots.map fun i => s1.pivots.getD i 0) ∧
    (∃ c : ℚ, c ≠ 0 ∧ toMatF ℚ n l (combine t s1 s2).basis =
      c • (toMatF ℚ n k s1.basis * toMatF ℚ k l s2.basis)) ∧
    ∀ v, InSub ℚ n l (combine t s1 s2) v ↔
      ∃ y, InSub ℚ k l s2 y ∧ v = toMatF ℚ n k s1.basis *ᵥ y := by
  obtain ⟨p1, p2, p3⟩ := combine_pivots h1.toSubOK h2.toSubOK
  have pb := combine_block h1.toSubOK h2.toSubOK
  have psort := combine_sorted h1.sorted h2.sorted (by rw [h1.plen]; exact h2.toSubOK.mem_lt)
  obtain ⟨m1, m2⟩ := toMatF_mul (F := ℚ) h1.dim h2.dim
  set b := mul s1.basis s2.basis with hb
  set P := s2.pivots.map fun i => s1.pivots.getD i 0 with hP
  have hdpos : 0 < s1.denom * s2.denom := mul_pos h1.pos h2.pos
  -- the block of the product
  have hblk : ∀ i < l, ∀ j < l, b.get (P.getD i 0) j = if i = j then s1.denom * s2.denom else 0 := by
    intro i hi j hj
    have hp := h1.plt _ (h2.plt i hi)
    have := pb i hi j hj hp
    rw [← m1] at this
    simp only [toMatF, of_apply] at this
    rw [p2 i hi]
    have h' : ((b.get (s1.pivots.getD (s2.pivots.getD i 0) 0) j : ℤ) : ℚ) =
        ((if i = j then s1.denom * s2.denom else 0 : ℤ) : ℚ) := by
      rw [this]; split_ifs <;> simp
    exact_mod_cast h'
  -- the whole space
  have hfull : l = n → ∀ i < n, ∀ j < n, b.get i j = if i = j then s1.denom * s2.denom else 0 := by
    rintro rfl i hi j hj
    have hp : P.getD i 0 = i := sorted_full psort p1 (fun c hc => by
      obtain ⟨i, hi, rfl⟩ := List.mem_iff_getElem.1 hc
      have := p3 i (by rw [← p1]; exact hi)
      rwa [List.getD_eq_getElem _ _ hi] at this) i hi
    rw [← hblk i hi j hj, hp]
  have hgdvd : l = n → 0 < n → s1.denom * s2.denom ∣ content t b := by
    intro hln hn
    refine dvd_content t _ 0 _ (dvd_zero _) fun x hx => ?_
    obtain ⟨r, hr, hxr⟩ := List.mem_flatten.1 hx
    obtain ⟨i, hi, rfl⟩ := List.mem_iff_getElem.1 hr
    obtain ⟨j, hj, rfl⟩ := List.mem_iff_getElem.1 hxr
    have hi' : i < n := by rw [← m2.nr]; exact hi
    have hj' : j < n := by rw [← hln, ← m2.len _ (List.getElem_mem hi)]; exact hj
    have := hfull hln i hi' j hj'
    unfold M.get at this
    rw [List.getD_eq_getElem _ _ hi, List.getD_eq_getElem _ _ hj] at this
    rw [this]
    split_ifs <;> simp
  -- from a proportional basis to the rest
  have fin : ∀ (S : Sub) (c : ℚ), c ≠ 0 → S.pivots = P → Dim n l S.basis → 0 < S.denom →
      (S.denom : ℚ) = c * ((s1.denom * s2.denom : ℤ) : ℚ) →
      (∀ i j, ((S.basis.get i j : ℤ) : ℚ) = c * ((b.get i j : ℤ) : ℚ)) → (l = n → S.denom = 1) →
      SubQ n l S ∧ S.pivots = P ∧
      (∃ c : ℚ, c ≠ 0 ∧ toMatF ℚ n l S.basis = c • (toMatF ℚ n k s1.basis * toMatF ℚ k l s2.basis)) ∧
      ∀ v, InSub ℚ n l S v ↔ ∃ y, InSub ℚ k l s2 y ∧ v = toMatF ℚ n k s1.basis *ᵥ y := by
    intro S c hc hSp hSd hpos hden hent hf
    have hM : toMatF ℚ n l S.basis = c • (toMatF ℚ n k s1.basis * toMatF ℚ k l s2.basis) := by
      rw [← m1]
      ext i j
      simp only [toMatF, of_apply, Matrix.smul_apply, smul_eq_mul]
      exact hent i j
    refine ⟨⟨⟨hSd, by rw [hSp, p1], fun i hi => by rw [hSp]; exact p3 i hi, fun i hi j hj => ?_, ?_⟩, hpos,
      by rw [hSp]; exact psort, hf⟩, hSp, ⟨c, hc, hM⟩, fun v => ⟨?_, ?_⟩⟩
    · rw [hSp, hent, hblk i hi j hj, hden]; split_ifs <;> simp
    · exact_mod_cast hpos.ne'
    · rintro ⟨x, rfl⟩
      refine ⟨toMatF ℚ k l s2.basis *ᵥ (c • x), ⟨c • x, rfl⟩, ?_⟩
      rw [hM, mulVec_mulVec, smul_mulVec, mulVec_smul]
    · rintro ⟨y, ⟨x, rfl⟩, rfl⟩
      refine ⟨c⁻¹ • x, ?_⟩
      rw [hM, mulVec_mulVec, smul_mulVec, mulVec_smul, smul_smul, mul_inv_cancel₀ hc, one_smul]
  unfold combine
  simp only
  rw [← hb]
  split_ifs with hg
  · have hg0 : content t b ≠ 0 := by omega
    -- the content divides the denominator
    have hgd : content t b ∣ s1.denom * s2.denom := by
      rcases Nat.eq_zero_or_pos l with h0 | h0
      · exfalso
        have : content t b = 0 := by
          unfold content
          have : b.rows.flatten = [] := by
            rw [List.flatten_eq_nil_iff]
            intro r hr
            exact List.length_eq_zero_iff.1 (by rw [m2.len r hr, h0])
          rw [this]; rfl
        omega
      · have := content_get t b (P.getD 0 0) 0
        rwa [hblk 0 h0 0 h0, if_pos rfl] at this
    have hgQ : ((content t b : ℤ) : ℚ) ≠ 0 := by exact_mod_cast hg0
    have hsd := sdiv_exact t hgd
    have hcast : ((sdiv t (s1.denom * s2.denom) (content t b) : ℤ) : ℚ) =
        (content t b : ℚ)⁻¹ * ((s1.denom * s2.denom : ℤ) : ℚ) := by
      rw [eq_inv_mul_iff_mul_eq₀ hgQ, mul_comm]; exact_mod_cast hsd
    refine fin _ ((content t b : ℚ)⁻¹) (inv_ne_zero hgQ) rfl ?_ ?_ hcast ?_ ?_
    · refine ⟨by simpa [M.nr] using m2.nr, m2.nc, fun r hr => ?_⟩
      obtain ⟨x, hx, rfl⟩ := List.mem_map.1 hr
      rw [List.length_map]; exact m2.len x hx
    · by_contra hneg
      have : sdiv t (s1.denom * s2.denom) (content t b) * content t b ≤ 0 :=
        mul_nonpos_of_nonpos_of_nonneg (not_lt.1 hneg) (by omega)
      omega
    · intro i j
      rw [get_map_map (sdiv t · (content t b)) (sdiv_zero t _), eq_inv_mul_iff_mul_eq₀ hgQ, mul_comm]
      exact_mod_cast sdiv_exact t (content_get t b i j)
    · intro hln
      rcases Nat.eq_zero_or_pos n with h0 | h0
      · exfalso
        have : content t b = 0 := by
          unfold content
          have : b.rows.flatten = [] := by
            rw [List.flatten_eq_nil_iff]
            intro r hr
            exact List.length_eq_zero_iff.1 (by rw [m2.len r hr, hln, h0])
          rw [this]; rfl
        omega
      · have h2' : content t b = s1.denom * s2.denom :=
          Int.dvd_antisymm (by omega) hdpos.le hgd (hgdvd hln h0)
        rw [h2'] at hsd ⊢
        exact mul_right_cancel₀ hdpos.ne' (by rw [hsd, one_mul])
  · refine fin _ 1 one_ne_zero rfl m2 hdpos (by rw [one_mul]) (fun i j => by rw [one_mul]) fun hln => ?_
    rcases Nat.eq_zero_or_pos n with h0 | h0
    · have hk : k = 0 := by
        by_contra hk
        have := h1.plt 0 (by omega)
        omega
      rw [h1.full (by omega), h2.full (by omega), one_mul]
    · have hd := hgdvd hln h0
      have h00 := hfull hln 0 h0 0 h0
      have := content_get t b 0 0
      rw [h00, if_pos rfl] at this
      have hnn : 0 ≤ content t b := (content_dvd t _ 0 (le_refl 0)).1
      have hcc : content t b ≠ 0 := fun h => by rw [h, zero_dvd_iff] at this; omega
      have : content t b = 1 := by omega
      rw [this] at hd
      exact Int.eq_one_of_dvd_one hdpos.le hd

/-- **C21 (eigenspaces).** `eigenspace(m,lambda)` consists of the vectors with `m v = lambda v`. -/
theorem C21_eigenspace (t : T) {m : M} (hm : Dim n n m) (lam : ℤ) :
    SubQ n (eigenspace t m lam).pivots.length (eigenspace t m lam) ∧
    ∀ v, InSub ℚ n (eigenspace t m lam).pivots.length (eigenspace t m lam) v ↔
      toMatF ℚ n n m *ᵥ v = (lam : ℚ) • v := by
  obtain ⟨a1, a2⟩ := toMatF_addscalar (F := ℚ) hm (-lam)
  obtain ⟨h1, h2⟩ := kernel_subQ t a2
  refine ⟨h1, fun v => ?_⟩
  unfold eigenspace
  rw [h2, a1, add_mulVec, smul_mulVec, one_mulVec]
  push_cast
  rw [neg_smul, ← sub_eq_add_neg, sub_eq_zero]

/-- **C21 (eigenspaces in subspaces).** For an invariant subspace `s`, `subeigenspace(m,l,s)` consists of the
vectors `v` of `s` with `m v = l v`. -/
theorem C21_subeigenspace (t : T) {m : M} {s : Sub} (hm : Dim n n m) (hs : SubQ n k s)
    (hinv : Invariant ℚ n k m s) (lam : ℤ) :
    SubQ n (subeigenspace t m lam s).pivots.length (subeigenspace t m lam s) ∧
    ∀ v, InSub ℚ n (subeigenspace t m lam s).pivots.length (subeigenspace t m lam s) v ↔
      InSub ℚ n k s v ∧ toMatF ℚ n n m *ᵥ v = (lam : ℚ) • v := by
  obtain ⟨r1, r2⟩ := C21_restrict_mat hm hs hinv
  obtain ⟨e1, e2⟩ := C21_eigenspace t r1 (lam * s.denom)
  obtain ⟨c1, c2, -, c4⟩ := C21_combine t hs e1
  have hlen : (subeigenspace t m lam s).pivots.length =
      (eigenspace t (restrictMat m s) (lam * s.denom)).pivots.length := by
    unfold subeigenspace; rw [c2, List.length_map]
  rw [hlen]
  refine ⟨c1, fun v => ?_⟩
  unfold subeigenspace
  rw [c4]
  have hdQ : (s.denom : ℚ) ≠ 0 := hs.denom
  have key : ∀ y, toMatF ℚ k k (restrictMat m s) *ᵥ y = ((lam * s.denom : ℤ) : ℚ) • y ↔
      toMatF ℚ n n m *ᵥ (toMatF ℚ n k s.basis *ᵥ y) = (lam : ℚ) • (toMatF ℚ n k s.basis *ᵥ y) := by
    intro y
    have h3 := congrArg (· *ᵥ y) r2
    simp only [smul_mulVec, ← mulVec_mulVec] at h3
    constructor
    · intro h
      rw [h, mulVec_smul] at h3
      refine smul_right_injective _ hdQ ?_
      simp only
      rw [h3, smul_smul]
      push_cast
      rw [mul_comm]
    · intro h
      rw [h, smul_smul, mul_comm, ← mulVec_smul] at h3
      have := hs.toSubOK.inj h3
      rw [← this]
      push_cast
      rfl
  constructor
  · rintro ⟨y, hy, rfl⟩
    exact ⟨⟨y, rfl⟩, (key y).1 ((e2 y).1 hy)⟩
  · rintro ⟨⟨y, rfl⟩, hv⟩
    exact ⟨y, (e2 y).2 ((key y).2 hv), rfl⟩

/-! ### images -/

theorem mem_rowSpan_iff {F : Type} [Field F] {m : M} (hm : Dim l n m) (v : Fin n → F) :
    v ∈ rowSpan F n m.rows ↔ ∃ x : Fin l → F, v = (toMatF F l n m)ᵀ *ᵥ x := by
  have e : {v | ∃ r ∈ m.rows, v = vecF F n r} = Set.range fun i : Fin l => (toMatF F l n m) i := by
    ext v
    simp only [Set.mem_ofPred_eq, Set.mem_range]
    have hl : m.rows.length = l := hm.nr
    constructor
    · rintro ⟨r, hr, rfl⟩
      obtain ⟨i, hi, rfl⟩ := List.mem_iff_getElem.1 hr
      refine ⟨⟨i, hl ▸ hi⟩, ?_⟩
      funext j
      simp only [toMatF, of_apply, M.get, vecF, ent]
      rw [List.getD_eq_getElem _ _ hi]
    · rintro ⟨i, rfl⟩
      have hi : (i : Nat) < m.rows.length := by rw [hl]; exact i.2
      refine ⟨_, List.getElem_mem hi, ?_⟩
      funext j
      simp only [toMatF, of_apply, M.get, vecF, ent]
      rw [List.getD_eq_getElem _ _ hi]
  rw [rowSpan, e, Submodule.mem_span_range_iff_exists_fun]
  constructor
  · rintro ⟨c, rfl⟩
    refine ⟨c, ?_⟩
    funext j
    rw [Finset.sum_apply]
    refine Finset.sum_congr rfl fun i _ => ?_
    rw [Pi.smul_apply, smul_eq_mul, mul_comm]; rfl
  · rintro ⟨c, rfl⟩
    refine ⟨c, ?_⟩
    funext j
    rw [Finset.sum_apply]
    refine Finset.sum_congr rfl fun i _ => ?_
    rw [Pi.smul_apply, smul_eq_mul, mul_comm]; rfl

theorem toMatF_transpose {F : Type} [Field F] {m : M} (hm : Dim l n m) :
    toMatF F n l (transpose m) = (toMatF F l n m)ᵀ ∧ Dim n l (transpose m) := by
  unfold transpose
  rw [hm.nr, hm.nc]
  refine ⟨?_, dim_ofFn _ _ _⟩
  ext i j
  simp only [toMatF, of_apply, transpose_apply]
  rw [M.get_ofFn i.2 j.2]

theorem image_core {F : Type} [Field F] {m e : M} {d : ℤ} {pc : List Nat} (hm : Dim l n m)
    (hd : (d : F) ≠ 0) (he : Dim pc.length l e) (hr : IsRREF F l d e.rows pc)
    (hspan : rowSpan F l e.rows = rowSpan F l (transpose m).rows) :
    SubOK F l pc.length ⟨d, pc, transpose e⟩ ∧
    ∀ v, InSub F l pc.length ⟨d, pc, transpose e⟩ v ↔ ∃ x, v = toMatF F l n m *ᵥ x := by
  obtain ⟨t1, t2⟩ := toMatF_transpose (F := F) he
  obtain ⟨u1, u2⟩ := toMatF_transpose (F := F) hm
  have hlt : ∀ i < pc.length, pc.getD i 0 < l := fun i hi => by
    rw [List.getD_eq_getElem _ _ hi]; exact hr.lt _ (List.getElem_mem hi)
  refine ⟨⟨t2, rfl, hlt, fun i hi j hj => ?_, hd⟩, fun v => ?_⟩
  · have h1 := congrFun (congrFun t1 ⟨pc.getD i 0, hlt i hi⟩) ⟨j, hj⟩
    have h2 := hr.piv j i hj hi
    simp only [toMatF, of_apply, transpose_apply] at h1
    simp only
    rw [h1]
    unfold ent at h2
    unfold M.get
    rw [h2]
    by_cases h : i = j
    · rw [if_pos h, if_pos h.symm]
    · rw [if_neg h, if_neg fun e => h e.symm]
  · unfold InSub
    rw [t1, ← mem_rowSpan_iff he, hspan, mem_rowSpan_iff u2, u1, transpose_transpose]

/-- **C19 (image).** `image(m)` is the column space of `m` over ℚ. -/
theorem C19_image (t : T) {m : M} (hm : Dim l n m) :
    SubOK ℚ l (image t m).pivots.length (image t m) ∧ 0 < (image t m).denom ∧
    ∀ v, InSub ℚ l (image t m).pivots.length (image t m) v ↔ ∃ x, v = toMatF ℚ l n m *ᵥ x := by
  obtain ⟨-, u2⟩ := toMatF_transpose (F := ℚ) hm
  obtain ⟨h1, h2, h3, -, -, -, h7⟩ := C19_echelon t (transpose m) u2.rect
  rw [u2.nc] at h2 h3 h7
  have hdim : Dim (echelon0 t (transpose m)).1.pc.length l (echelon0 t (transpose m)).1.m := by
    refine ⟨h2.len, ?_, h7⟩
    rw [← u2.nc]
    unfold echelon0
    simp only
    split_ifs <;> rfl
  obtain ⟨k1, k2⟩ := image_core hm (by exact_mod_cast h1.ne') hdim h2 h3
  exact ⟨k1, h1, k2⟩

/-- Hypotheses met: an invariant subspace of dimension 2 with denominator 2 and an eigenvector in it. -/
example : image .long ⟨3, [[2, 0, 2], [0, 2, 2], [1, 3, 4]]⟩ = ⟨2, [0, 1], ⟨2, [[2, 0], [0, 2], [1, 3]]⟩⟩ ∧
    kernel .long ⟨3, [[1, 3, -2]]⟩ = ⟨1, [1, 2], ⟨2, [[-3, 2], [1, 0], [0, 1]]⟩⟩ ∧
    restrictMat ⟨3, [[2, 0, 0], [0, 2, 0], [1, 3, 0]]⟩ ⟨2, [0, 1], ⟨2, [[2, 0], [0, 2], [1, 3]]⟩⟩ =
      ⟨2, [[4, 0], [0, 4]]⟩ ∧
    subeigenspace .big ⟨3, [[5, 0, -2], [0, 1, 0], [1, 3, 0]]⟩ 1 ⟨1, [0, 1, 2], ⟨3, [[1, 0, 0], [0, 1, 0], [0, 0, 1]]⟩⟩
      = kernel .big ⟨3, [[4, 0, -2], [0, 0, 0], [1, 3, -1]]⟩ := by decide +kernel

/-! ### modulo p -/

variable {p : ℕ} [hp : Fact p.Prime]

/-- a subspace over `F_p` as the code builds it: denominator 1, increasing pivots, reduced entries -/
structure SubP (p : ℕ) [Fact p.Prime] (n k : Nat) (s : Sub) : Prop extends SubOK (ZMod p) n k s where
  one : s.denom = 1
  sorted : s.pivots.Pairwise (· < ·)
  red : ∀ i j, |s.basis.get i j| < (p : ℤ)

theorem SubP.basis_full {s : Sub} (h : SubP p n n s) : toMatF (ZMod p) n n s.basis = 1 := by
  have hq : ∀ i < n, s.pivots.getD i 0 = i := sorted_full h.sorted h.plen h.toSubOK.mem_lt
  ext i j
  have := h.block i i.2 j j.2
  rw [hq i i.2, h.one] at this
  rw [toMatF, of_apply, this, one_apply]
  simp [Fin.ext_iff]

theorem foldl_modp (t : T) (f : Nat → ℤ) (g : Nat → ZMod p) (hf : ∀ k, ((f k : ℤ) : ZMod p) = g k) :
    ∀ (n : Nat), (((List.range n).foldl (fun s k => sxmod t (f k + s) p) 0 : ℤ) : ZMod p) =
      ∑ k ∈ Finset.range n, g k
  | 0 => by simp
  | n + 1 => by
    rw [List.range_succ, List.foldl_append, Finset.sum_range_succ, ← foldl_modp t f g hf n]
    simp only [List.foldl_cons, List.foldl_nil]
    rw [cast_sxmod]
    push_cast
    rw [hf]; ring

theorem foldl_red (t : T) (f : Nat → ℤ) : ∀ n, |(List.range n).foldl (fun s k => sxmod t (f k + s) p) 0| < (p : ℤ)
  | 0 => by
    have := hp.out.pos
    simp only [List.range_zero, List.foldl_nil, abs_zero]
    exact_mod_cast this
  | n + 1 => by
    rw [List.range_succ, List.foldl_append]
    exact sxmod_abs_lt t _

theorem get_ofFn_red {q : ℤ} (hq : 0 < q) {f : Nat → Nat → ℤ} (hf : ∀ i j, |f i j| < q) (a b i j : Nat) :
    |(M.ofFn a b f).get i j| < q := by
  by_cases hi : i < a
  · by_cases hj : j < b
    · rw [M.get_ofFn hi hj]; exact hf i j
    · have : (M.ofFn a b f).get i j = 0 := by
        unfold M.get M.ofFn
        simp [hi, hj]
      rw [this, abs_zero]; exact hq
  · have : (M.ofFn a b f).get i j = 0 := by
      unfold M.get M.ofFn
      simp [hi]
    rw [this, abs_zero]; exact hq

theorem toMatF_mulModP (t : T) {a b : M} (ha : Dim n k a) (hb : Dim k l b) (ra : ∀ i j, |a.get i j| < (p : ℤ))
    (rb : ∀ i j, |b.get i j| < (p : ℤ)) :
    toMatF (ZMod p) n l (mulModP t p a b) = toMatF (ZMod p) n k a * toMatF (ZMod p) k l b ∧
    Dim n l (mulModP t p a b) ∧ ∀ i j, |(mulModP t p a b).get i j| < (p : ℤ) := by
  have h : a.nc = b.nr := by rw [ha.nc, hb.nr]
  unfold mulModP
  rw [if_pos h, ha.nr, hb.nc, ha.nc]
  refine ⟨?_, dim_ofFn _ _ _, get_ofFn_red (by exact_mod_cast hp.out.pos) (fun i j => ?_) _ _⟩
  · ext i j
    rw [Matrix.mul_apply, toMatF, Matrix.of_apply, M.get_ofFn i.2 j.2,
      foldl_modp t _ (fun k => ((a.get i k : ℤ) : ZMod p) * ((b.get k j : ℤ) : ZMod p))
        (fun k => cast_sxmodmul t (ra i k) (rb k j)), ← Fin.sum_univ_eq_sum_range]
    rfl
  · exact foldl_red t (fun k => sxmodmul t (a.get i k) (b.get k j) p) k

/-- **C21 (restriction modulo p).** For a matrix with reduced entries and an invariant subspace over `F_p`,
`A = prestrict(M,S,p)` satisfies `M*B = B*A` modulo `p`. -/
theorem C21_prestrict (t : T) {m : M} {s : Sub} (hm : Dim n n m) (hr : ∀ i j, |m.get i j| < (p : ℤ))
    (hs : SubP p n k s) (hinv : Invariant (ZMod p) n k m s) :
    Dim k k (prestrict t p m s) ∧ (∀ i j, |(prestrict t p m s).get i j| < (p : ℤ)) ∧
    toMatF (ZMod p) n n m * toMatF (ZMod p) n k s.basis =
      toMatF (ZMod p) n k s.basis * toMatF (ZMod p) k k (prestrict t p m s) := by
  unfold prestrict
  rw [hs.dim.nc, hm.nr]
  split_ifs with h
  · subst h
    refine ⟨hm, hr, ?_⟩
    rw [hs.basis_full]
    simp
  · obtain ⟨A', hA'⟩ := hinv.matrix
    obtain ⟨r1, r2⟩ := toMatF_rowsubmat hm hs.toSubOK
    obtain ⟨m1, m2, m3⟩ := toMatF_mulModP t r2 hs.dim (fun i j => by
      unfold M.get rowsubmat
      by_cases hi : i < s.pivots.length
      · rw [List.getD_eq_getElem (s.pivots.map _) _ (by simpa using hi), List.getElem_map]
        exact hr _ j
      · rw [List.getD_eq_default (s.pivots.map _) _ (by simpa using hi)]
        simpa using hp.out.pos) hs.red
    refine ⟨m2, m3, ?_⟩
    rw [m1, r1]
    have := restrict_core hs.toSubOK.blockMat hA'
    rwa [hs.one, Int.cast_one, one_smul] at this

/-- **C21 (combining modulo p).** -/
theorem C21_pcombine (t : T) {s1 s2 : Sub} (h1 : SubP p n k s1) (h2 : SubP p k l s2) :
    SubP p n l (pcombine t p s1 s2) ∧
    ((pcombine t p s1 s2).pivots = s2.pivots.map fun i => s1.pivots.getD i 0) ∧
    toMatF (ZMod p) n l (pcombine t p s1 s2).basis =
      toMatF (ZMod p) n k s1.basis * toMatF (ZMod p) k l s2.basis ∧
    ∀ v, InSub (ZMod p) n l (pcombine t p s1 s2) v ↔
      ∃ y, InSub (ZMod p) k l s2 y ∧ v = toMatF (ZMod p) n k s1.basis *ᵥ y := by
  obtain ⟨p1, p2, p3⟩ := combine_pivots h1.toSubOK h2.toSubOK
  have pb := combine_block h1.toSubOK h2.toSubOK
  have psort := combine_sorted h1.sorted h2.sorted (by rw [h1.plen]; exact h2.toSubOK.mem_lt)
  obtain ⟨m1, m2, m3⟩ := toMatF_mulModP t h1.dim h2.dim h1.red h2.red
  refine ⟨⟨⟨m2, p1, p3, fun i hi j hj => ?_, ?_⟩, ?_, psort, m3⟩, rfl, m1, fun v => ?_⟩
  · have hp' := h1.plt _ (h2.plt i hi)
    have := pb i hi j hj hp'
    rw [← m1] at this
    simp only [toMatF, of_apply] at this
    simp only [pcombine]
    rw [p2 i hi, this]
  · simp only [pcombine]
    rw [h1.one, h2.one]; simp
  · simp only [pcombine]
    rw [h1.one, h2.one]; rfl
  · unfold InSub
    simp only [pcombine]
    rw [m1]
    constructor
    · rintro ⟨x, rfl⟩
      exact ⟨_, ⟨x, rfl⟩, by rw [mulVec_mulVec]⟩
    · rintro ⟨y, ⟨x, rfl⟩, rfl⟩
      exact ⟨x, by rw [mulVec_mulVec]⟩

theorem pkCol_red (t : T) (jj : Nat) : ∀ (L : List (Row × Nat)) (r : Nat), |(pkCol t p jj L).getD r 0| < (p : ℤ)
  | [], r => by
    simp only [pkCol, List.getD_nil, abs_zero]
    exact_mod_cast hp.out.pos
  | (row, c) :: L, 0 => by
    simp only [pkCol, List.getD_cons_zero]
    exact smod_abs_lt t _
  | (row, c) :: L, r + 1 => by
    simp only [pkCol, List.getD_cons_succ]
    exact pkCol_red t jj L r

theorem pkernel_subP (X : Marith.XGcd) (t : T) {m : M} (hm : Dim l n m) :
    SubP p n (pkernel X t p m).pivots.length (pkernel X t p m) ∧
    ∀ v, InSub (ZMod p) n (pkernel X t p m).pivots.length (pkernel X t p m) v ↔
      toMatF (ZMod p) l n m *ᵥ v = 0 := by
  obtain ⟨-, -, hnp, -⟩ := C17_echmodp_uptri (p := p) X t m hm.rect
  obtain ⟨h1, h2⟩ := C18_pkernel (p := p) X t m hm.rect
  have hpv : (pkernel X t p m).pivots = nonPivots n (echmodpUptri X t p m).pc := by
    rw [← hm.nc]; exact hnp
  rw [hm.nc] at h2
  obtain ⟨h3, h4⟩ := subOK_of_kernel (F := ZMod p) hm (by rw [h1]; simp)
    (by
      rw [← hm.nc]
      unfold pkernel
      exact dim_ofFn _ _ _)
    (fun c hc => by
      rw [hpv] at hc
      exact List.mem_range.1 (List.mem_of_mem_filter hc)) (by rw [h1]; simpa using h2)
  refine ⟨⟨h3, h1, ?_, ?_⟩, h4⟩
  · rw [hpv]; exact List.pairwise_lt_range.filter _
  · unfold pkernel
    refine get_ofFn_red (by exact_mod_cast hp.out.pos) (fun i j => ?_) _ _
    have h1p : (1 : ℤ) < p := by exact_mod_cast hp.out.one_lt
    split
    · exact pkCol_red t _ _ _
    · split_ifs
      · simpa using h1p
      · simp only [abs_zero]; omega

/-- **C21 (eigenspaces modulo p).** -/
theorem C21_peigenspace (X : Marith.XGcd) (t : T) {m : M} (hm : Dim n n m) (lam : ℤ) :
    SubP p n (peigenspace X t p m lam).pivots.length (peigenspace X t p m lam) ∧
    ∀ v, InSub (ZMod p) n (peigenspace X t p m lam).pivots.length (peigenspace X t p m lam) v ↔
      toMatF (ZMod p) n n m *ᵥ v = (lam : ZMod p) • v := by
  obtain ⟨a1, a2⟩ := toMatF_addscalar (F := ZMod p) hm (-lam)
  obtain ⟨h1, h2⟩ := pkernel_subP (p := p) X t a2
  refine ⟨h1, fun v => ?_⟩
  unfold peigenspace
  rw [h2, a1, add_mulVec, smul_mulVec, one_mulVec]
  push_cast
  rw [neg_smul, ← sub_eq_add_neg, sub_eq_zero]

/-- **C21 (eigenspaces in subspaces, modulo p).** -/
theorem C21_psubeigenspace (X : Marith.XGcd) (t : T) {m : M} {s : Sub} (hm : Dim n n m)
    (hr : ∀ i j, |m.get i j| < (p : ℤ)) (hs : SubP p n k s)
    (hinv : Invariant (ZMod p) n k m s) (lam : ℤ) :
    SubP p n (psubeigenspace X t p m lam s).pivots.length (psubeigenspace X t p m lam s) ∧
    ∀ v, InSub (ZMod p) n (psubeigenspace X t p m lam s).pivots.length (psubeigenspace X t p m lam s) v ↔
      InSub (ZMod p) n k s v ∧ toMatF (ZMod p) n n m *ᵥ v = (lam : ZMod p) • v := by
  obtain ⟨r1, -, r2⟩ := C21_prestrict t hm hr hs hinv
  obtain ⟨e1, e2⟩ := C21_peigenspace (p := p) X t r1 (lam * s.denom)
  obtain ⟨c1, c2, -, c4⟩ := C21_pcombine t hs e1
  have hlen : (psubeigenspace X t p m lam s).pivots.length =
      (peigenspace X t p (prestrict t p m s) (lam * s.denom)).pivots.length := by
    unfold psubeigenspace; rw [c2, List.length_map]
  rw [hlen]
  refine ⟨c1, fun v => ?_⟩
  unfold psubeigenspace
  rw [c4]
  have key : ∀ y, toMatF (ZMod p) k k (prestrict t p m s) *ᵥ y = ((lam * s.denom : ℤ) : ZMod p) • y ↔
      toMatF (ZMod p) n n m *ᵥ (toMatF (ZMod p) n k s.basis *ᵥ y) =
        (lam : ZMod p) • (toMatF (ZMod p) n k s.basis *ᵥ y) := by
    intro y
    rw [hs.one, mul_one]
    have h3 := congrArg (· *ᵥ y) r2
    simp only [← mulVec_mulVec] at h3
    constructor
    · intro h
      rw [h3, h, mulVec_smul]
    · intro h
      rw [h, ← mulVec_smul] at h3
      exact (hs.toSubOK.inj h3).symm
  constructor
  · rintro ⟨y, hy, rfl⟩
    exact ⟨⟨y, rfl⟩, (key y).1 ((e2 y).1 hy)⟩
  · rintro ⟨⟨y, rfl⟩, hv⟩
    exact ⟨y, (e2 y).2 ((key y).2 hv), rfl⟩

/-- **C18 (pimage).** `pimage(m,p)` is the column space of `m` over `F_p`. -/
theorem C18_pimage (X : Marith.XGcd) (t : T) {m : M} (hm : Dim l n m) :
    SubOK (ZMod p) l (pimage X t p m).pivots.length (pimage X t p m) ∧
    ∀ v, InSub (ZMod p) l (pimage X t p m).pivots.length (pimage X t p m) v ↔
      ∃ x, v = toMatF (ZMod p) l n m *ᵥ x := by
  obtain ⟨-, u2⟩ := toMatF_transpose (F := ZMod p) hm
  obtain ⟨h2, h3, -, -, -, h7⟩ := C17_echmodp (p := p) X t (transpose m) u2.rect
  rw [u2.nc] at h2 h3 h7
  have hdim : Dim (echmodp X t p (transpose m)).pc.length l (echmodp X t p (transpose m)).m :=
    ⟨h2.len, u2.nc, fun r hr => (h7 r hr).1⟩
  rw [show (1 : ZMod p) = ((1 : ℤ) : ZMod p) by simp] at h2
  exact image_core hm (by simp) hdim h2 h3

/-- Hypotheses met: the eigenspace of a matrix modulo 7. -/
example : peigenspace Marith.Props.xgcd0 .big 7 ⟨2, [[1, 3], [2, 3]]⟩ 2 = ⟨1, [1], ⟨1, [[3], [1]]⟩⟩ := by
  decide +kernel

end Props

end Eclib.Mat
