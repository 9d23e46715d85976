import Verif.Lll.Props

/-!
# C49: the first vector is short

Consequence of `Reduced`: the first vector of the basis returned is at most `2^(n-1)` times as
long (for the square of the length) as the shortest non-zero vector of the lattice.
-/

namespace Eclib.Lll

open Finset

variable {m : ℕ}

theorem form_sum' (g : Fin m → ℤ) (x : Fin m → ℚ) (S : Finset ℕ) (c : ℕ → ℚ) (y : ℕ → Fin m → ℚ) :
    form g (∑ j ∈ S, c j • y j) x = ∑ j ∈ S, c j * form g (y j) x := by
  rw [form_comm, form_sum]
  apply Finset.sum_congr rfl
  intro j _; rw [form_comm]

/-- Cauchy-Schwarz, in the form needed. -/
theorem form_cauchy (g : Fin m → ℤ) (hg : ∀ k, 0 < g k) (x y : Fin m → ℚ) :
    form g x y * form g x y ≤ form g x x * form g y y := by
  by_cases hy : form g y y = 0
  · have := form_eq_zero g hg y hy
    rw [this, form_zero, form_zero]; simp
  · have hyp : 0 < form g y y := lt_of_le_of_ne (form_nonneg g hg y) (Ne.symm hy)
    have h := form_nonneg g hg (form g y y • x - form g x y • y)
    have e : form g (form g y y • x - form g x y • y) (form g y y • x - form g x y • y)
        = form g y y * (form g x x * form g y y - form g x y * form g x y) := by
      rw [form_sub, form_smul, form_smul, form_comm g (_ - _) x,
        form_comm g (_ - _) y, form_sub, form_sub,
        form_smul, form_smul, form_smul, form_smul, form_comm g y x]
      ring
    rw [e] at h
    have := nonneg_of_mul_nonneg_right h hyp
    linarith

/-- In a Gram-Schmidt basis the product of `b i` with `bs j` vanishes for `i < j` and is the square of
`bs j` for `i = j`. -/
theorem IsGramSchmidt.form_b {g : Fin m → ℤ} {n : ℕ} {b : ℕ → Fin m → ℤ} {bs : ℕ → Fin m → ℚ}
    {mu : ℕ → ℕ → ℚ} (h : IsGramSchmidt g n b bs mu) {i j : ℕ} (hi : 1 ≤ i) (hij : i ≤ j)
    (hj : j ≤ n) :
    form g (toQ (b i)) (bs j) = if i = j then form g (bs j) (bs j) else 0 := by
  rw [h.expand i hi (by omega), form_comm, form_add, form_sum, Finset.sum_eq_zero, add_zero]
  · split_ifs with e
    · rw [e]
    · rw [form_comm]; exact h.orth i j hi (by omega) (by omega) hj e
  · intro t ht
    simp at ht
    rw [h.orth j t (by omega) hj ht.1 (by omega) (by omega), mul_zero]

theorem Reduced.short {g : Fin m → ℤ} (hg : ∀ k, 0 < g k) {n : ℕ} {b : ℕ → Fin m → ℤ}
    (h : Reduced g n b) (c : ℕ → ℤ) (i0 : ℕ) (h1 : 1 ≤ i0) (h2 : i0 ≤ n) (h3 : c i0 ≠ 0) :
    form g (toQ (b 1)) (toQ (b 1))
      ≤ 2 ^ (n - 1) * form g (∑ i ∈ Icc 1 n, (c i : ℚ) • toQ (b i))
          (∑ i ∈ Icc 1 n, (c i : ℚ) • toQ (b i)) := by
  obtain ⟨bs, mu, hG, hS, hL⟩ := h
  -- growth of the squares
  have hgrow : ∀ i, 1 ≤ i → i ≤ n → form g (bs 1) (bs 1) ≤ 2 ^ (i - 1) * form g (bs i) (bs i) := by
    intro i hi
    induction i, hi using Nat.le_induction with
    | base => intro _; simp
    | succ i hi ih =>
      intro hin
      have a1 := ih (by omega)
      have a2 := hL (i + 1) (by omega) hin
      have a3 := hS (i + 1) i hi (by omega) hin
      have a4 := hG.pos i hi (by omega)
      simp only [Nat.add_sub_cancel] at a2 ⊢
      have a5 : mu (i + 1) i ^ 2 ≤ 1 / 4 := by
        rw [← sq_abs]; nlinarith [abs_nonneg (mu (i + 1) i)]
      have a6 : form g (bs i) (bs i) ≤ 2 * form g (bs (i + 1)) (bs (i + 1)) := by nlinarith
      calc form g (bs 1) (bs 1) ≤ 2 ^ (i - 1) * form g (bs i) (bs i) := a1
        _ ≤ 2 ^ (i - 1) * (2 * form g (bs (i + 1)) (bs (i + 1))) := by gcongr
        _ = 2 ^ i * form g (bs (i + 1)) (bs (i + 1)) := by
          obtain ⟨t, rfl⟩ : ∃ t, i = t + 1 := ⟨i - 1, by omega⟩
          simp only [Nat.add_sub_cancel]; ring
  -- the last non-zero coefficient
  obtain ⟨i, hi, hmax⟩ := Finset.exists_max_image ((Icc 1 n).filter fun i => c i ≠ 0)
    (fun i => i) ⟨i0, by simp [h1, h2, h3]⟩
  simp at hi
  obtain ⟨⟨hi1, hin⟩, hci⟩ := hi
  have hz : ∀ t ∈ Icc 1 n, i < t → c t = 0 := by
    intro t ht hit
    by_contra h0
    have := hmax t (by rw [Finset.mem_filter]; exact ⟨ht, h0⟩)
    omega
  set v := ∑ i ∈ Icc 1 n, (c i : ℚ) • toQ (b i) with hv
  have hvi : form g v (bs i) = c i * form g (bs i) (bs i) := by
    rw [hv, form_sum', Finset.sum_eq_single i]
    · rw [hG.form_b hi1 le_rfl hin, if_pos rfl]
    · intro t ht hti
      rcases lt_or_gt_of_ne hti with hlt | hgt
      · simp at ht
        rw [hG.form_b ht.1 hlt.le hin, if_neg hti, mul_zero]
      · rw [hz t ht hgt]; simp
    · intro h; simp at h; omega
  have hB := hG.pos i hi1 hin
  have hcs := form_cauchy g hg v (bs i)
  rw [hvi] at hcs
  have hc1 : (1 : ℚ) ≤ (c i : ℚ) * c i := by
    have : 1 ≤ c i * c i := by
      have := mul_self_pos.mpr hci
      omega
    exact_mod_cast this
  have hBv : form g (bs i) (bs i) ≤ form g v v := by
    have : form g (bs i) (bs i) * form g (bs i) (bs i) ≤ form g v v * form g (bs i) (bs i) := by
      nlinarith [mul_pos hB hB]
    exact le_of_mul_le_mul_right this hB
  have hb1 : toQ (b 1) = bs 1 := by
    rw [hG.expand 1 le_rfl (by omega)]; simp
  rw [hb1]
  calc form g (bs 1) (bs 1) ≤ 2 ^ (i - 1) * form g (bs i) (bs i) := hgrow i hi1 hin
    _ ≤ 2 ^ (n - 1) * form g (bs i) (bs i) := by
      apply mul_le_mul_of_nonneg_right _ hB.le
      exact pow_le_pow_right₀ (by norm_num) (by omega)
    _ ≤ 2 ^ (n - 1) * form g v v := by gcongr

/-- A vector of the lattice is an integral combination of the generators. -/
theorem mem_span_comb {n : ℕ} {b : ℕ → Fin m → ℤ} {v : Fin m → ℤ}
    (h : v ∈ Submodule.span ℤ (b '' Set.Icc 1 n)) :
    ∃ c : ℕ → ℤ, v = ∑ i ∈ Icc 1 n, c i • b i := by
  induction h using Submodule.span_induction with
  | mem x h =>
    obtain ⟨i, hi, rfl⟩ := h
    refine ⟨fun t => if t = i then 1 else 0, ?_⟩
    rw [Finset.sum_eq_single i]
    · simp
    · intro t _ ht; simp [ht]
    · intro h; simp at h; have := hi.1; have := hi.2; omega
  | zero => exact ⟨fun _ => 0, by simp⟩
  | add x y _ _ hx hy =>
    obtain ⟨c, rfl⟩ := hx
    obtain ⟨e, rfl⟩ := hy
    exact ⟨fun t => c t + e t, by simp [add_smul, Finset.sum_add_distrib]⟩
  | smul a x _ hx =>
    obtain ⟨c, rfl⟩ := hx
    exact ⟨fun t => a * c t, by rw [Finset.smul_sum]; simp [mul_smul]⟩

/-- **C49** (short vector): when the vectors are not reported dependent, the first vector returned is,
up to the factor `2^(n-1)` for the squares, as short as any non-zero vector of the input lattice. -/
theorem C49_short {f n : ℕ} {b : ℕ → Fin m → ℤ} {r} (hg : ∀ x, 0 < b 0 x)
    (hb : n = 1 → b 1 ≠ 0) (h : lllReduce f n b = some r) (hr : r.1 = false)
    (v : Fin m → ℤ) (hv : v ∈ Submodule.span ℤ (b '' Set.Icc 1 n)) (hv0 : v ≠ 0) :
    ∑ k, b 0 k * r.2 1 k ^ 2 ≤ 2 ^ (n - 1) * ∑ k, b 0 k * v k ^ 2 := by
  rw [← (C49_lattice h).2] at hv
  obtain ⟨c, rfl⟩ := mem_span_comb hv
  have : ∃ i0, 1 ≤ i0 ∧ i0 ≤ n ∧ c i0 ≠ 0 := by
    by_contra hne
    push Not at hne
    apply hv0
    apply Finset.sum_eq_zero
    intro i hi
    simp at hi
    rw [hne i hi.1 hi.2, zero_smul]
  obtain ⟨i0, h1, h2, h3⟩ := this
  have key := (C49_reduced hg hb h hr).short hg c i0 h1 h2 h3
  have e : ∑ i ∈ Icc 1 n, (c i : ℚ) • toQ (r.2 i) = toQ (∑ i ∈ Icc 1 n, c i • r.2 i) := by
    funext k; simp [toQ, Finset.sum_apply]
  rw [e] at key
  have e2 : ∀ x : Fin m → ℤ, form (b 0) (toQ x) (toQ x) = ((∑ k, b 0 k * x k ^ 2 : ℤ) : ℚ) := by
    intro x; unfold form toQ; push_cast; apply Finset.sum_congr rfl; intro k _; ring
  rw [e2, e2] at key
  exact_mod_cast key

/-! ## A concrete case -/

/-- Weights (2,3,5) and a basis of a lattice of index 735. -/
def exB : ℕ → Fin 3 → ℤ
  | 0 => ![2, 3, 5]
  | 1 => ![105, 0, 0]
  | 2 => ![34, 7, 0]
  | 3 => ![51, 4, 1]
  | _ => 0

/-- The hypotheses hold for this case, and the result is a visibly shorter basis. -/
example : (∀ x, 0 < exB 0 x) ∧ ∃ r, lllReduce 7 3 exB = some r ∧ r.1 = false
    ∧ r.2 1 = ![3, -8, -2] ∧ r.2 2 = ![-3, -5, 4] ∧ r.2 3 = ![11, 0, 7] := by
  refine ⟨by decide, ((lllReduce 7 3 exB).get (by decide +kernel)), by simp, ?_⟩
  decide +kernel

end Eclib.Lll
