import Verif.Lll.Init

/-!
# Gram-Schmidt vectors

The specification `Reduced` of an LLL reduced basis, and the Gram-Schmidt vectors belonging to the
decomposition held by the algorithm.
-/

namespace Eclib.Lll

open Finset

variable {m : ℕ}

/-! ## Specification -/

/-- The diagonal quadratic space with coefficients `g`. -/
def form (g : Fin m → ℤ) (x y : Fin m → ℚ) : ℚ := ∑ k, g k * x k * y k

/-- An integer vector as a rational vector. -/
def toQ (x : Fin m → ℤ) : Fin m → ℚ := fun k => x k

/-- `bs`, `mu` is the Gram-Schmidt orthogonalisation of `b 1, ..., b n`. -/
structure IsGramSchmidt (g : Fin m → ℤ) (n : ℕ) (b : ℕ → Fin m → ℤ) (bs : ℕ → Fin m → ℚ)
    (mu : ℕ → ℕ → ℚ) : Prop where
  expand : ∀ i, 1 ≤ i → i ≤ n → toQ (b i) = bs i + ∑ j ∈ Icc 1 (i - 1), mu i j • bs j
  orth : ∀ i j, 1 ≤ i → i ≤ n → 1 ≤ j → j ≤ n → i ≠ j → form g (bs i) (bs j) = 0
  pos : ∀ i, 1 ≤ i → i ≤ n → 0 < form g (bs i) (bs i)

/-- The vectors `b 1, ..., b n` are LLL reduced (Lenstra, Lenstra, Lovász with constant 3/4) for
the form `g`. -/
def Reduced (g : Fin m → ℤ) (n : ℕ) (b : ℕ → Fin m → ℤ) : Prop :=
  ∃ bs mu, IsGramSchmidt g n b bs mu
    ∧ (∀ i j, 1 ≤ j → j < i → i ≤ n → |mu i j| ≤ 1 / 2)
    ∧ (∀ i, 2 ≤ i → i ≤ n →
        (3 / 4 - mu i (i - 1) ^ 2) * form g (bs (i - 1)) (bs (i - 1)) ≤ form g (bs i) (bs i))

/-! ## Bilinearity -/

theorem form_comm (g : Fin m → ℤ) (x y : Fin m → ℚ) : form g x y = form g y x := by
  unfold form; apply Finset.sum_congr rfl; intro k _; ring

theorem form_add (g : Fin m → ℤ) (x y z : Fin m → ℚ) :
    form g x (y + z) = form g x y + form g x z := by
  unfold form; rw [← Finset.sum_add_distrib]; apply Finset.sum_congr rfl; intro k _
  simp only [Pi.add_apply]; ring

theorem form_sub (g : Fin m → ℤ) (x y z : Fin m → ℚ) :
    form g x (y - z) = form g x y - form g x z := by
  unfold form; rw [← Finset.sum_sub_distrib]; apply Finset.sum_congr rfl; intro k _
  simp only [Pi.sub_apply]; ring

theorem form_smul (g : Fin m → ℤ) (x y : Fin m → ℚ) (c : ℚ) :
    form g x (c • y) = c * form g x y := by
  unfold form; rw [Finset.mul_sum]; apply Finset.sum_congr rfl; intro k _
  simp only [Pi.smul_apply, smul_eq_mul]; ring

theorem form_zero (g : Fin m → ℤ) (x : Fin m → ℚ) : form g x 0 = 0 := by
  simp [form]

theorem form_sum (g : Fin m → ℤ) (x : Fin m → ℚ) (S : Finset ℕ) (c : ℕ → ℚ) (y : ℕ → Fin m → ℚ) :
    form g x (∑ j ∈ S, c j • y j) = ∑ j ∈ S, c j * form g x (y j) := by
  classical
  induction S using Finset.induction_on with
  | empty => simp [form_zero]
  | insert a S ha ih => rw [Finset.sum_insert ha, Finset.sum_insert ha, form_add, form_smul, ih]

theorem form_nonneg (g : Fin m → ℤ) (hg : ∀ k, 0 < g k) (x : Fin m → ℚ) : 0 ≤ form g x x := by
  unfold form
  apply Finset.sum_nonneg
  intro k _
  have : (0 : ℚ) < g k := by exact_mod_cast hg k
  have := mul_self_nonneg (x k)
  rw [mul_assoc]
  positivity

theorem form_eq_zero (g : Fin m → ℤ) (hg : ∀ k, 0 < g k) (x : Fin m → ℚ) (h : form g x x = 0) :
    x = 0 := by
  unfold form at h
  rw [Finset.sum_eq_zero_iff_of_nonneg] at h
  · funext k
    have h1 := h k (Finset.mem_univ k)
    have h2 : (g k : ℚ) ≠ 0 := by exact_mod_cast (hg k).ne'
    simpa [h2] using h1
  · intro k _
    have : (0 : ℚ) < g k := by exact_mod_cast hg k
    have := mul_self_nonneg (x k)
    rw [mul_assoc]
    positivity

theorem sdot_form (b : ℕ → Fin m → ℤ) (i j : ℕ) :
    (sdot b i j : ℚ) = form (b 0) (toQ (b i)) (toQ (b j)) := by
  unfold sdot form toQ; push_cast; rfl

/-! ## The orthogonal vectors -/

/-- Orthogonalisation with given coefficients. -/
def gs (b : ℕ → Fin m → ℤ) (mu : ℕ → ℕ → ℚ) (i : ℕ) : Fin m → ℚ :=
  toQ (b i) - ∑ j ∈ (Icc 1 (i - 1)).attach,
    mu i j.1 • (have : j.1 < i := by have := Finset.mem_Icc.mp j.2; omega
                gs b mu j.1)
termination_by i

theorem gs_eq (b : ℕ → Fin m → ℤ) (mu : ℕ → ℕ → ℚ) (i : ℕ) :
    gs b mu i = toQ (b i) - ∑ j ∈ Icc 1 (i - 1), mu i j • gs b mu j := by
  rw [gs]
  congr 1
  exact Finset.sum_attach (Icc 1 (i - 1)) (fun j => mu i j • gs b mu j)

section

variable {b : ℕ → Fin m → ℤ} {N : ℕ} {L : ℕ → ℕ → ℚ} {d : ℕ → ℚ}

theorem form_gs (h : Dec (sdot b) N L d) (y : Fin m → ℚ) (x : ℕ → ℚ)
    (hy : ∀ c, 1 ≤ c → c ≤ N →
      form (b 0) y (toQ (b c)) = ∑ i ∈ Icc 1 c, x i * L c i * wt d i)
    (j : ℕ) (hj : 1 ≤ j) (hjN : j ≤ N) :
    form (b 0) y (gs b (fun i j => L i j / d j) j) = x j / d (j - 1) := by
  induction j using Nat.strong_induction_on with
  | _ j ih =>
    rw [gs_eq, form_sub, form_sum, hy j hj hjN, sum_top hj]
    have e : ∑ t ∈ Icc 1 (j - 1), L j t / d t * form (b 0) y (gs b (fun i j => L i j / d j) t)
        = ∑ i ∈ Icc 1 (j - 1), x i * L j i * wt d i := by
      apply Finset.sum_congr rfl
      intro t ht
      simp at ht
      rw [ih t (by omega) ht.1 (by omega)]
      have h1 := (h.pos t (by omega)).ne'
      have h2 := (h.pos (t - 1) (by omega)).ne'
      unfold wt
      field_simp
    rw [e, h.diag j hj hjN]
    have h1 := (h.pos j (by omega)).ne'
    have h2 := (h.pos (j - 1) (by omega)).ne'
    unfold wt
    field_simp
    ring

theorem form_b_gs (h : Dec (sdot b) N L d) (i : ℕ) (hi : 1 ≤ i) (hiN : i ≤ N)
    (j : ℕ) (hj : 1 ≤ j) (hjN : j ≤ N) :
    form (b 0) (toQ (b i)) (gs b (fun i j => L i j / d j) j) = L i j / d (j - 1) := by
  apply form_gs h (toQ (b i)) (L i) _ j hj hjN
  intro c hc hcN
  rw [← sdot_form, h.eq i c hi hiN hc hcN]
  apply sum_trunc hcN
  intro s hs _
  rw [h.up c s hc hcN hs]; ring

theorem gs_orth (h : Dec (sdot b) N L d) (i : ℕ) (hi : 1 ≤ i) (hiN : i ≤ N)
    (j : ℕ) (hj : 1 ≤ j) (hjN : j ≤ N) :
    form (b 0) (gs b (fun i j => L i j / d j) i) (gs b (fun i j => L i j / d j) j)
      = if i = j then d i / d (i - 1) else 0 := by
  induction i using Nat.strong_induction_on with
  | _ i ih =>
    rw [gs_eq b _ i, form_comm, form_sub, form_sum, form_comm, form_b_gs h i hi hiN j hj hjN]
    have e : ∀ t ∈ Icc 1 (i - 1), L i t / d t * form (b 0) (gs b (fun i j => L i j / d j) j)
          (gs b (fun i j => L i j / d j) t)
        = if t = j then L i j / d (j - 1) else 0 := by
      intro t ht
      simp at ht
      rw [form_comm, ih t (by omega) ht.1 (by omega)]
      split_ifs with htj
      · subst htj
        have h1 := (h.pos t (by omega)).ne'
        have h2 := (h.pos (t - 1) (by omega)).ne'
        field_simp
      · simp
    rw [Finset.sum_congr rfl e, Finset.sum_ite_eq']
    rcases lt_trichotomy i j with hij | rfl | hij
    · rw [if_neg (by simp; omega), if_neg (by omega), h.up i j hi hiN hij]; simp
    · rw [if_neg (by simp; omega), if_pos rfl, h.diag i hi hiN]; simp
    · rw [if_pos (by simp; omega), if_neg (by omega)]; simp

/-- The square of the component of `y` orthogonal to `b 1, ..., b N`. -/
theorem form_rest (h : Dec (sdot b) N L d) (y : Fin m → ℚ) (x : ℕ → ℚ)
    (hy : ∀ c, 1 ≤ c → c ≤ N →
      form (b 0) y (toQ (b c)) = ∑ i ∈ Icc 1 c, x i * L c i * wt d i)
    (v : Fin m → ℚ)
    (hv : v = y - ∑ j ∈ Icc 1 N, (x j / d j) • gs b (fun i j => L i j / d j) j) :
    form (b 0) v v = form (b 0) y y - ∑ j ∈ Icc 1 N, x j * x j * wt d j := by
  have orth : ∀ j, 1 ≤ j → j ≤ N → form (b 0) v (gs b (fun i j => L i j / d j) j) = 0 := by
    intro j hj hjN
    rw [form_comm, hv, form_sub, form_sum, form_comm, form_gs h y x hy j hj hjN]
    have e : ∀ t ∈ Icc 1 N, x t / d t * form (b 0) (gs b (fun i j => L i j / d j) j)
          (gs b (fun i j => L i j / d j) t)
        = if t = j then x j / d (j - 1) else 0 := by
      intro t ht
      simp at ht
      rw [form_comm, gs_orth h t ht.1 ht.2 j hj hjN]
      split_ifs with htj
      · subst htj
        have h1 := (h.pos t (by omega)).ne'
        have h2 := (h.pos (t - 1) (by omega)).ne'
        field_simp
      · simp
    rw [Finset.sum_congr rfl e, Finset.sum_ite_eq', if_pos (by simp; omega), sub_self]
  have e1 : form (b 0) v v = form (b 0) v y := by
    have e := congrArg (form (b 0) v) hv
    rw [form_sub, form_sum] at e
    rw [e, Finset.sum_eq_zero, sub_zero]
    intro t ht
    simp at ht
    rw [orth t ht.1 ht.2, mul_zero]
  rw [e1, form_comm, hv, form_sub, form_sum]
  congr 1
  apply Finset.sum_congr rfl
  intro t ht
  simp at ht
  rw [form_gs h y x hy t ht.1 ht.2]
  have h1 := (h.pos t (by omega)).ne'
  have h2 := (h.pos (t - 1) (by omega)).ne'
  unfold wt
  field_simp

end

end Eclib.Lll
