import Verif.Hom.Three
import Mathlib.Data.ZMod.Units
import Mathlib.LinearAlgebra.FiniteDimensional.Lemmas
import Mathlib.LinearAlgebra.Dimension.Constructions

/-!
# The number of 3-term relations is at most one more than the number of generators
-/

set_option linter.unusedSectionVars false

namespace Eclib.Hom

open Symb (Symbdata SymbOK)
open Symb.SymbSpec

/-! ### transitivity -/

/-- every M-symbol is represented by coprime integers -/
theorem exists_coprime {N c d : ℤ} (hN : 0 < N) (h : Unimod N c d) : ∃ c' d', IsCoprime c' d' ∧ N ∣ c' - c ∧ N ∣ d' - d := by
  have key : ∀ c : ℤ, c ≠ 0 → Unimod N c d → ∃ d', IsCoprime c d' ∧ N ∣ d' - d := by
    intro c hc h
    have h1 := Symb.isCoprime_gcd_of_unimod h
    have : NeZero c.natAbs := ⟨Int.natAbs_ne_zero.2 hc⟩
    have hdvd : Int.gcd c N ∣ c.natAbs := by
      rw [Int.gcd_eq_natAbs]
      exact Nat.gcd_dvd_left _ _
    have hu : IsUnit ((d : ℤ) : ZMod (Int.gcd c N)) := Symb.isUnit_intCast.2 h1.symm
    obtain ⟨e, he⟩ := ZMod.unitsMap_surjective hdvd hu.unit
    have he1 : ((e : ZMod c.natAbs).val : ZMod (Int.gcd c N)) = (d : ZMod (Int.gcd c N)) := by
      have := congrArg Units.val he
      rw [IsUnit.unit_spec, ZMod.unitsMap_val] at this
      rw [← this, ZMod.natCast_val]
    set x := (e : ZMod c.natAbs).val with hx
    have hx1 : IsCoprime c (x : ℤ) := by
      have h2 : Nat.Coprime x c.natAbs := ZMod.val_coe_unit_coprime e
      rw [Int.isCoprime_iff_gcd_eq_one, Int.gcd_eq_natAbs, Int.natAbs_natCast]
      exact h2.symm
    have hx2 : ((Int.gcd c N : ℕ) : ℤ) ∣ (x : ℤ) - d := by
      rw [← ZMod.intCast_zmod_eq_zero_iff_dvd]
      push_cast
      rw [he1, sub_self]
    obtain ⟨z, hz⟩ := hx2
    rw [Int.gcd_eq_gcd_ab] at hz
    refine ⟨d + N * (Int.gcdB c N * z), ?_, ⟨Int.gcdB c N * z, by ring⟩⟩
    have e2 : d + N * (Int.gcdB c N * z) = (x : ℤ) + c * (-(Int.gcdA c N * z)) := by linear_combination -hz
    rw [e2]
    exact (IsCoprime.add_mul_left_right_iff).2 hx1
  by_cases hc : c = 0
  · subst hc
    have h' : Unimod N N d := by
      obtain ⟨a, b, k, hk⟩ := h
      exact ⟨0, b, k, by linear_combination hk⟩
    obtain ⟨d', h1, h2⟩ := key N (by omega) h'
    exact ⟨N, d', h1, ⟨1, by ring⟩, h2⟩
  · obtain ⟨d', h1, h2⟩ := key c hc h
    exact ⟨c, d', h1, ⟨0, by ring⟩, h2⟩

/-- a function on M-symbols that is invariant under `(c:d) ↦ (-d:c)` and `(c:d) ↦ (c-d:c)` is constant -/
theorem constant_of_invariant {K : Type*} {N : ℤ} (hN : 0 < N) {f : ℤ → ℤ → K}
    (he : ∀ {c d c' d' : ℤ}, Unimod N c d → Equiv N c d c' d' → f c' d' = f c d)
    (hs : ∀ {c d : ℤ}, Unimod N c d → f (-d) c = f c d) (ht : ∀ {c d : ℤ}, Unimod N c d → f (c - d) c = f c d)
    {c d : ℤ} (h : Unimod N c d) : f c d = f 1 0 := by
  have hun : ∀ {c d : ℤ}, IsCoprime c d → Unimod N c d := by
    rintro c d ⟨a, b, h⟩
    exact ⟨a, b, 0, by linear_combination h⟩
  have hU : ∀ {c d : ℤ}, IsCoprime c d → f (c + d) d = f c d := by
    intro c d h
    have h1 := hun h
    have h2 : IsCoprime (-d) c := h.symm.neg_left
    have h3 : IsCoprime (c + d) d := by
      have := (IsCoprime.add_mul_left_left_iff (x := c) (y := d) (z := 1)).2 h
      simpa using this
    rw [← hs h1, ← ht (hun h2), ← he (hun h3) (equiv_neg (c := c + d) (d := d))]
    congr 1
    ring
  have hUk : ∀ (k : ℕ) {c d : ℤ}, IsCoprime c d → f (c + k * d) d = f c d := by
    intro k
    induction k with
    | zero => intro c d _; simp
    | succ k ih =>
      intro c d h
      have h3 : IsCoprime (c + k * d) d := by
        have := (IsCoprime.add_mul_left_left_iff (x := c) (y := d) (z := k)).2 h
        rwa [mul_comm] at this
      rw [← ih h, ← hU h3]
      congr 1
      push_cast
      ring
  have hUz : ∀ (k : ℤ) {c d : ℤ}, IsCoprime c d → f (c + k * d) d = f c d := by
    intro k c d h
    rcases Int.eq_nat_or_neg k with ⟨n, rfl | rfl⟩
    · exact hUk n h
    · have h3 : IsCoprime (c + -(n : ℤ) * d) d := by
        have := (IsCoprime.add_mul_left_left_iff (x := c) (y := d) (z := -(n : ℤ))).2 h
        rwa [mul_comm] at this
      rw [← hUk n h3]
      congr 1
      ring
  have hco : ∀ (n : ℕ) {c d : ℤ}, d.natAbs ≤ n → IsCoprime c d → f c d = f 1 0 := by
    intro n
    induction n with
    | zero =>
      intro c d hd h
      obtain rfl : d = 0 := by omega
      have hu := isCoprime_zero_right.1 h
      rcases Int.isUnit_iff.1 hu with rfl | rfl
      · rfl
      · have := he (hun (c := 1) (d := 0) (isCoprime_zero_right.2 isUnit_one)) equiv_neg
        simpa using this
    | succ n ih =>
      intro c d hd h
      by_cases h0 : d = 0
      · exact ih (by omega) h
      have h3 : IsCoprime (c % d) d := by
        have := (IsCoprime.add_mul_left_left_iff (x := c) (y := d) (z := -(c / d))).2 h
        rwa [mul_neg, ← sub_eq_add_neg, ← Int.emod_def] at this
      have e1 : f c d = f (c % d) d := by
        rw [← hUz (c / d) h3]
        congr 1
        rw [mul_comm]
        exact (Int.emod_add_mul_ediv c d).symm
      rw [e1, ← hs (hun h3)]
      refine ih ?_ h3.symm.neg_left
      have h4 := Int.emod_lt_abs c h0
      have h5 := Int.emod_nonneg c h0
      rw [Int.abs_eq_natAbs] at h4
      omega
  obtain ⟨c', d', h1, h2, h3⟩ := exists_coprime hN h
  rw [← he h (⟨1, isCoprime_one_left, by simpa using h2, by simpa using h3⟩ : Equiv N c d c' d')]
  exact hco _ le_rfl h1

/-! ### dependencies between the relations -/

section count

variable {N : ℤ} (hN : 1 < N) {S : Symbdata} (hS : SymbOK N S)

/-- the multiplicity of `i` in the orbit of `k` -/
def mul3 (S : Symbdata) (i k : ℕ) : ℚ :=
  (if i = k then 1 else 0) + (if i = mt S k then 1 else 0) + (if i = mt S (mt S k) then 1 else 0)

include hN hS

theorem mt_lt {i : ℕ} (h : i < num S) : mt S i < num S := (mt_spec hN hS h).2.1

theorem mR_lt {i : ℕ} (h : i < num S) : mR S i < num S := (mR_spec hN hS h).2.1

theorem ms_lt {i : ℕ} (h : i < num S) : ms S i < num S := (ms_spec hN hS h).2.1

theorem mt_eq_iff {i k : ℕ} (hi : i < num S) (hk : k < num S) : mt S i = k ↔ i = mt S (mt S k) := by
  constructor
  · rintro rfl; exact (mt_mt_mt hN hS hi).symm
  · rintro rfl; exact mt_mt_mt hN hS hk

theorem mR_eq_iff {i k : ℕ} (hi : i < num S) (hk : k < num S) : mR S i = k ↔ i = mR S k := by
  constructor
  · rintro rfl; exact (mR_mR hN hS hi).symm
  · rintro rfl; exact mR_mR hN hS hk

theorem mR_mt {k : ℕ} (hk : k < num S) : mR S (mt S k) = mt S (mt S (mR S k)) := by
  have h1 := mR_mt_mt hN hS (mt_lt hN hS (mt_lt hN hS hk))
  rw [mt_mt_mt hN hS hk, mR_mt_mt hN hS hk] at h1
  exact h1

theorem mul3_t {i k : ℕ} (hi : i < num S) (hk : k < num S) : mul3 S (mt S i) k = mul3 S i k := by
  have k1 := mt_lt hN hS hk
  have k2 := mt_lt hN hS k1
  unfold mul3
  rw [if_congr (mt_eq_iff hN hS hi hk) rfl rfl, if_congr (mt_eq_iff hN hS hi k1) rfl rfl,
    if_congr (mt_eq_iff hN hS hi k2) rfl rfl, mt_mt_mt hN hS hk]
  ring

theorem mul3_R {i k : ℕ} (hi : i < num S) (hk : k < num S) : mul3 S (mR S i) k = mul3 S i (mR S k) := by
  have k1 := mt_lt hN hS hk
  have k2 := mt_lt hN hS k1
  unfold mul3
  rw [if_congr (mR_eq_iff hN hS hi hk) rfl rfl, if_congr (mR_eq_iff hN hS hi k1) rfl rfl,
    if_congr (mR_eq_iff hN hS hi k2) rfl rfl, mR_mt hN hS hk, mR_mt_mt hN hS hk]
  ring

/-- the sum of a function over an orbit -/
theorem mul3_sum {k : ℕ} (hk : k < num S) (f : ℕ → ℚ) :
    ∑ i ∈ Finset.range (num S), mul3 S i k * f i = f k + f (mt S k) + f (mt S (mt S k)) := by
  have h : ∀ {k}, k < num S → ∑ i ∈ Finset.range (num S), (if i = k then (1 : ℚ) else 0) * f i = f k := by
    intro k hk
    rw [Finset.sum_eq_single k]
    · simp
    · intro b _ hb; simp [hb]
    · intro h; exact absurd (Finset.mem_range.2 hk) h
  unfold mul3
  simp only [add_mul]
  rw [Finset.sum_add_distrib, Finset.sum_add_distrib, h hk, h (mt_lt hN hS hk), h (mt_lt hN hS (mt_lt hN hS hk))]

/-- `R` acts on the functions with the 2-term relations by this factor (0 when `R` is not used) -/
def eps (pf : ℤ) : ℚ := if pf = 0 then 0 else if pf = -1 then 1 else -1

omit hN hS in
theorem eps_sq {pf : ℤ} (h : pf ≠ 0) : eps pf * eps pf = 1 := by
  unfold eps
  rw [if_neg h]
  split_ifs <;> norm_num

variable {pf : ℤ} {st : Two} (hi : Inv2 (num S) (ms S) (rr S pf) st (num S))

include hi

theorem sval_R (hpf : pf ≠ 0) (y : ℕ → ℚ) {i : ℕ} (hin : i < num S) :
    sval y (st.ci.getD (mR S i) 0) = eps pf * sval y (st.ci.getD i 0) := by
  unfold eps
  rw [if_neg hpf]
  have h1 := (hi.rel y hin).2
  unfold rr at h1
  rw [if_neg hpf] at h1
  by_cases h : pf = -1
  · rw [if_pos h] at h1 ⊢
    rw [h1, one_mul]
  · rw [if_neg h] at h1 ⊢
    have h2 := (hi.rel y ((mr_spec hN hS hin).2.1)).1
    rw [ms_mr hN hS hin, h1] at h2
    rw [h2]
    ring

omit hi

/-- the function on symbols of a combination of relations -/
def lam (S : Symbdata) (pf : ℤ) {m : ℕ} (ks : Fin m → ℕ) (μ : Fin m → ℚ) (i : ℕ) : ℚ :=
  ∑ j, μ j * (mul3 S i (ks j) + eps pf * mul3 S i (mR S (ks j)))

variable {m : ℕ} {ks : Fin m → ℕ} (hks : ∀ j, ks j < num S) (μ : Fin m → ℚ)

include hks

theorem lam_t {i : ℕ} (h : i < num S) : lam S pf ks μ (mt S i) = lam S pf ks μ i := by
  unfold lam
  apply Finset.sum_congr rfl
  intro j _
  rw [mul3_t hN hS h (hks j), mul3_t hN hS h (mR_lt hN hS (hks j))]

theorem lam_R (hpf : pf ≠ 0) {i : ℕ} (h : i < num S) : lam S pf ks μ (mR S i) = eps pf * lam S pf ks μ i := by
  unfold lam
  rw [Finset.mul_sum]
  apply Finset.sum_congr rfl
  intro j _
  rw [mul3_R hN hS h (hks j), mul3_R hN hS h (mR_lt hN hS (hks j)), mR_mR hN hS (hks j)]
  linear_combination -μ j * mul3 S i (mR S (ks j)) * eps_sq hpf

include hi

/-- the relation at `k` -/
def relAt (S : Symbdata) (ci : List ℤ) (y : ℕ → ℚ) (k : ℕ) : ℚ :=
  sval y (ci.getD k 0) + sval y (ci.getD (mt S k) 0) + sval y (ci.getD (mt S (mt S k)) 0)

omit hks in
theorem relAt_R (y : ℕ → ℚ) {k : ℕ} (hk : k < num S) :
    eps pf * relAt S st.ci y (mR S k) = eps pf * eps pf * relAt S st.ci y k := by
  by_cases hpf : pf = 0
  · unfold eps
    rw [if_pos hpf]
    ring
  · unfold relAt
    rw [← mR_mt hN hS hk, ← mR_mt_mt hN hS hk, sval_R hN hS hi hpf y hk, sval_R hN hS hi hpf y (mt_lt hN hS hk),
      sval_R hN hS hi hpf y (mt_lt hN hS (mt_lt hN hS hk))]
    ring

theorem lam_sum (y : ℕ → ℚ) : ∑ i ∈ Finset.range (num S), lam S pf ks μ i * sval y (st.ci.getD i 0) =
    (1 + eps pf * eps pf) * ∑ j, μ j * relAt S st.ci y (ks j) := by
  unfold lam
  simp only [Finset.sum_mul]
  rw [Finset.sum_comm, Finset.mul_sum]
  apply Finset.sum_congr rfl
  intro j _
  have h1 := mul3_sum hN hS (hks j) fun i => sval y (st.ci.getD i 0)
  have h2 := mul3_sum hN hS (mR_lt hN hS (hks j)) fun i => sval y (st.ci.getD i 0)
  have h3 := relAt_R hN hS hi y (hks j)
  have e : ∀ i, μ j * (mul3 S i (ks j) + eps pf * mul3 S i (mR S (ks j))) * sval y (st.ci.getD i 0) =
      μ j * (mul3 S i (ks j) * sval y (st.ci.getD i 0)) +
        μ j * eps pf * (mul3 S i (mR S (ks j)) * sval y (st.ci.getD i 0)) := fun i => by ring
  simp only [e]
  rw [Finset.sum_add_distrib, ← Finset.mul_sum, ← Finset.mul_sum, h1, h2]
  change μ j * relAt S st.ci y (ks j) + μ j * eps pf * relAt S st.ci y (mR S (ks j)) = _
  linear_combination μ j * h3

omit hN hS hks hi in
theorem sval_ind (a : ℕ) (z : ℤ) : sval (fun b => if b = a then (1 : ℚ) else 0) z =
    (if z = a + 1 then 1 else 0) - (if z = -(a + 1 : ℤ) then 1 else 0) := by
  unfold sval
  beta_reduce
  rcases lt_trichotomy z 0 with h | rfl | h
  · rw [if_neg (by omega), if_pos h, if_neg (by omega : ¬ z = a + 1)]
    by_cases e : z = -(a + 1 : ℤ)
    · rw [if_pos e, if_pos (by omega)]; ring
    · rw [if_neg e, if_neg (by omega)]; ring
  · rw [if_neg (by omega), if_neg (by omega), if_neg (by omega), if_neg (by omega)]; ring
  · rw [if_pos h, if_neg (by omega : ¬ z = -(a + 1 : ℤ))]
    by_cases e : z = a + 1
    · rw [if_pos e, if_pos (by omega)]; ring
    · rw [if_neg e, if_neg (by omega)]; ring

theorem lam_rr {i : ℕ} (h : i < num S) : lam S pf ks μ (rr S pf i) - lam S pf ks μ (ms S (rr S pf i)) =
    lam S pf ks μ i - lam S pf ks μ (ms S i) := by
  have hs := ms_lt hN hS h
  by_cases hpf : pf = 0
  · unfold rr
    rw [if_pos hpf]
  · have l1 := lam_R hN hS hks μ hpf h
    have l2 := lam_R hN hS hks μ hpf hs
    unfold rr
    rw [if_neg hpf]
    by_cases h1 : pf = -1
    · rw [if_pos h1, l1, ms_mR hN hS h, ← mR_ms hN hS h, l2]
      unfold eps
      rw [if_neg hpf, if_pos h1]
      ring
    · rw [if_neg h1, ms_mr hN hS h, l1, ← mR_ms hN hS h, l2]
      unfold eps
      rw [if_neg hpf, if_neg h1]
      ring

/-- a dependency between the relations is invariant under `sof` -/
theorem lam_s (h0 : ∀ a < st.gens.length, ∑ j, μ j * relAt S st.ci (fun b => if b = a then 1 else 0) (ks j) = 0)
    {i : ℕ} (h : i < num S) : lam S pf ks μ (ms S i) = lam S pf ks μ i := by
  have hv := invol hN hS pf
  have hpos : ∀ i < num S, 0 < st.ci.getD i 0 → lam S pf ks μ i - lam S pf ks μ (ms S i) = 0 := by
    intro i h hp
    obtain ⟨a, g, e1, e2, e3⟩ := hi.pos i h (hi.done i h) hp
    have hga := (List.getElem?_eq_some_iff.1 e2).1
    obtain ⟨g1, g2, g3⟩ := hi.gen a g e2
    have hD : ∀ i < num S, st.ci.getD i 0 = a + 1 →
        lam S pf ks μ i - lam S pf ks μ (ms S i) = lam S pf ks μ g - lam S pf ks μ (ms S g) := by
      intro i h e
      obtain ⟨a', g', f1, f2, f3⟩ := hi.pos i h (hi.done i h) (by omega)
      have : a' = a := by omega
      subst this
      rw [e2] at f2
      obtain rfl := Option.some.inj f2
      rcases f3 with rfl | rfl
      · rfl
      · exact lam_rr hN hS hi hks μ g1
    rw [hD i h e1]
    have hsum := lam_sum hN hS hi hks μ fun b => if b = a then 1 else 0
    rw [h0 a hga, mul_zero] at hsum
    simp only [sval_ind, mul_sub] at hsum
    rw [Finset.sum_sub_distrib] at hsum
    have hre : ∑ i ∈ Finset.range (num S), lam S pf ks μ i * (if st.ci.getD i 0 = -(a + 1 : ℤ) then (1 : ℚ) else 0) =
        ∑ i ∈ Finset.range (num S), lam S pf ks μ (ms S i) * (if st.ci.getD i 0 = a + 1 then (1 : ℚ) else 0) := by
      refine Finset.sum_nbij' (ms S) (ms S) ?_ ?_ ?_ ?_ ?_
      · intro i hi'
        exact Finset.mem_range.2 (ms_lt hN hS (Finset.mem_range.1 hi'))
      · intro i hi'
        exact Finset.mem_range.2 (ms_lt hN hS (Finset.mem_range.1 hi'))
      · intro i hi'; exact ms_ms hN hS (Finset.mem_range.1 hi')
      · intro i hi'; exact ms_ms hN hS (Finset.mem_range.1 hi')
      · intro i hi'
        have hi'' := Finset.mem_range.1 hi'
        rw [ms_ms hN hS hi'', hi.es i hi'' (hi.done i hi'')]
        congr 1
        exact if_congr (by omega) rfl rfl
    rw [hre, ← Finset.sum_sub_distrib] at hsum
    have hterm : ∀ i ∈ Finset.range (num S), lam S pf ks μ i * (if st.ci.getD i 0 = a + 1 then (1 : ℚ) else 0) -
        lam S pf ks μ (ms S i) * (if st.ci.getD i 0 = a + 1 then (1 : ℚ) else 0) =
        (lam S pf ks μ g - lam S pf ks μ (ms S g)) * (if st.ci.getD i 0 = a + 1 then (1 : ℚ) else 0) := by
      intro i hi'
      by_cases e : st.ci.getD i 0 = a + 1
      · rw [if_pos e, ← hD i (Finset.mem_range.1 hi') e]; ring
      · rw [if_neg e]; ring
    rw [Finset.sum_congr rfl hterm, ← Finset.mul_sum] at hsum
    refine (mul_eq_zero.1 hsum).resolve_right (ne_of_gt ?_)
    refine Finset.sum_pos' (fun i _ => by split_ifs <;> norm_num) ⟨g, Finset.mem_range.2 g1, ?_⟩
    rw [if_pos g3]
    norm_num
  rcases lt_trichotomy (st.ci.getD i 0) 0 with hz | hz | hz
  · have := hpos (ms S i) (ms_lt hN hS h) (by rw [hi.es i h (hi.done i h)]; omega)
    rw [ms_ms hN hS h] at this
    linarith
  · rcases hi.zero i h (hi.done i h) hz with e | e
    · rw [e]
    · by_cases hpf : pf = 0
      · unfold rr at e
        rw [if_pos hpf] at e
        rw [e]
      · have l1 := lam_R hN hS hks μ hpf h
        have l2 := lam_R hN hS hks μ hpf (ms_lt hN hS h)
        unfold rr at e
        rw [if_neg hpf] at e
        by_cases h1 : pf = -1
        · rw [if_pos h1] at e
          have e' : ms S i = mR S i := by
            have := congrArg (ms S) e
            rw [ms_ms hN hS (mR_lt hN hS h)] at this
            exact this.symm
          rw [e', l1]
          unfold eps
          rw [if_neg hpf, if_pos h1, one_mul]
        · rw [if_neg h1, ms_mr hN hS h] at e
          rw [e] at l1
          rw [mR_ms hN hS h, ← ms_mR hN hS h, e] at l2
          unfold eps at l1 l2
          rw [if_neg hpf, if_neg h1] at l1 l2
          linarith
  · linarith [hpos i h hz]

/-- a dependency between the relations gives a constant function -/
theorem lam_const (h0 : ∀ a < st.gens.length, ∑ j, μ j * relAt S st.ci (fun b => if b = a then 1 else 0) (ks j) = 0)
    {i : ℕ} (h : i < num S) : lam S pf ks μ i = lam S pf ks μ (idx S 1 0) := by
  obtain ⟨_, h2, h3⟩ := sy_spec hN hS h
  have hidx : ∀ {c d : ℤ}, Unimod N c d → idx S c d < num S := fun h => (idx_spec hN hS h).2.1
  have hsy : ∀ {c d : ℤ}, Unimod N c d → Equiv N (sy S (idx S c d)).1 (sy S (idx S c d)).2 c d :=
    fun h => (idx_spec hN hS h).2.2
  have us : ∀ {c d : ℤ}, Unimod N c d → Unimod N (-d) c := fun h => by
    simpa using Symb.Props.Unimod.apply h (a := 0) (b := -1) (x := 1) (y := 0) (e := 1) (by norm_num) (by norm_num)
  have ut : ∀ {c d : ℤ}, Unimod N c d → Unimod N (c - d) c := fun h => by
    simpa [sub_eq_add_neg] using
      Symb.Props.Unimod.apply h (a := 1) (b := -1) (x := 1) (y := 0) (e := 1) (by norm_num) (by norm_num)
  have key := constant_of_invariant (by omega : 0 < N) (f := fun c d => lam S pf ks μ (idx S c d)) ?_ ?_ ?_ h2
  · rw [h3] at key
    exact key
  · intro c d c' d' hu he
    rw [(idx_eq_iff hN hS hu (Symb.Unimod.of_equiv he hu)).2 he]
  · intro c d hu
    rw [← lam_s hN hS hi hks μ h0 (hidx hu)]
    congr 1
    obtain ⟨_, k2, k3⟩ := ms_spec hN hS (hidx hu)
    refine eq_of_equiv hN hS (hidx (us hu)) k2 (Symb.Equiv.trans (hsy (us hu)) (Symb.Equiv.symm (Symb.Equiv.trans k3 ?_)))
    simpa using Symb.Props.Equiv.apply (hsy hu) 0 (-1) 1 0
  · intro c d hu
    rw [← lam_t hN hS hks μ (hidx hu)]
    congr 1
    obtain ⟨_, k2, k3⟩ := mt_spec hN hS (hidx hu)
    refine eq_of_equiv hN hS (hidx (ut hu)) k2 (Symb.Equiv.trans (hsy (ut hu)) (Symb.Equiv.symm (Symb.Equiv.trans k3 ?_)))
    simpa [sub_eq_add_neg] using Symb.Props.Equiv.apply (hsy hu) 1 (-1) 1 0

omit hi hks in
theorem Orb.symm {a b : ℕ} (ha : a < num S) (h : Orb S pf a b) : Orb S pf b a := by
  have a1 := mt_lt hN hS ha
  have a2 := mt_lt hN hS a1
  have hb : b < num S := by
    rcases h with (rfl | rfl | rfl) | ⟨_, rfl | rfl | rfl⟩
    · exact ha
    · exact a1
    · exact a2
    · exact mR_lt hN hS ha
    · exact mR_lt hN hS a1
    · exact mR_lt hN hS a2
  rcases h with (e | e | e) | ⟨hpf, e | e | e⟩
  · rw [e]; exact Orb.self a
  · have := Orb.next hN hS hb (Orb.next hN hS hb (Orb.self (pf := pf) b))
    rw [e] at this ⊢
    rwa [mt_mt_mt hN hS ha] at this
  · have := Orb.next hN hS hb (Orb.self (pf := pf) b)
    rw [e] at this ⊢
    rwa [mt_mt_mt hN hS ha] at this
  · have := Orb.R hN hS hpf hb (Orb.self (pf := pf) b)
    rw [e] at this ⊢
    rwa [mR_mR hN hS ha] at this
  · have := Orb.next hN hS hb (Orb.next hN hS hb (Orb.R hN hS hpf hb (Orb.self (pf := pf) b)))
    rw [e] at this ⊢
    rwa [mR_mR hN hS a1, mt_mt_mt hN hS ha] at this
  · have := Orb.next hN hS hb (Orb.R hN hS hpf hb (Orb.self (pf := pf) b))
    rw [e] at this ⊢
    rwa [mR_mR hN hS a2, mt_mt_mt hN hS ha] at this

omit hi hks in
theorem relAt_t (y : ℕ → ℚ) {k : ℕ} (hk : k < num S) : relAt S st.ci y (mt S k) = relAt S st.ci y k := by
  unfold relAt
  rw [mt_mt_mt hN hS hk]
  ring

omit hi hks hN hS in
theorem mul3_ne {i k : ℕ} (h : mul3 S i k ≠ 0) : i = k ∨ i = mt S k ∨ i = mt S (mt S k) := by
  by_contra hc
  push Not at hc
  apply h
  unfold mul3
  rw [if_neg hc.1, if_neg hc.2.1, if_neg hc.2.2]
  norm_num

omit hi hks hN hS in
theorem mul3_nonneg (i k : ℕ) : 0 ≤ mul3 S i k := by
  unfold mul3
  have h : ∀ P : Prop, ∀ [Decidable P], (0 : ℚ) ≤ if P then 1 else 0 := fun P _ => by split_ifs <;> norm_num
  have := h (i = k)
  have := h (i = mt S k)
  have := h (i = mt S (mt S k))
  linarith

omit hi hks hN hS in
theorem mul3_self (k : ℕ) : 0 < mul3 S k k := by
  unfold mul3
  have h : ∀ P : Prop, ∀ [Decidable P], (0 : ℚ) ≤ if P then 1 else 0 := fun P _ => by split_ifs <;> norm_num
  have := h (k = mt S k)
  have := h (k = mt S (mt S k))
  rw [if_pos rfl]
  linarith

omit hks in
/-- the coefficient of a non-trivial relation in its own orbit -/
theorem coef_ne {k : ℕ} (hk : k < num S) (hnt : Nontriv S st.ci k) : mul3 S k k + eps pf * mul3 S k (mR S k) ≠ 0 := by
  have h1 := mul3_self (S := S) k
  have h2 := mul3_nonneg (S := S) k (mR S k)
  have hR := mR_lt hN hS hk
  by_cases h0 : mul3 S k (mR S k) = 0
  · rw [h0, mul_zero, add_zero]; exact ne_of_gt h1
  by_cases hpf : pf = 0
  · unfold eps
    rw [if_pos hpf, zero_mul, add_zero]
    exact ne_of_gt h1
  by_cases hpm : pf = -1
  · unfold eps
    rw [if_neg hpf, if_pos hpm]
    linarith
  exfalso
  obtain ⟨y, hy⟩ := hnt
  apply hy
  change relAt S st.ci y k = 0
  have e1 : relAt S st.ci y k = relAt S st.ci y (mR S k) := by
    rcases mul3_ne h0 with e | e | e
    · exact congrArg _ e
    · exact (congrArg _ e).trans (relAt_t hN hS y hR)
    · exact (congrArg _ e).trans ((relAt_t hN hS y (mt_lt hN hS hR)).trans (relAt_t hN hS y hR))
  have e2 := relAt_R hN hS hi y hk
  unfold eps at e2
  rw [if_neg hpf, if_neg hpm] at e2
  linarith

omit hks in
/-- non-trivial relations with different orbits number at most one more than the generators -/
theorem reps_bound {ks : List ℕ} (hr : Reps S pf st.ci ks) : ks.length ≤ st.gens.length + 1 := by
  by_contra hc
  let kf : Fin ks.length → ℕ := fun j => ks[j]
  have hkf : ∀ j, kf j < num S := fun j => hr.lt _ (List.getElem_mem j.2)
  let M : Matrix (Fin st.gens.length ⊕ Unit) (Fin ks.length) ℚ := fun a j =>
    match a with
    | .inl a => relAt S st.ci (fun b => if b = a.val then 1 else 0) (kf j)
    | .inr _ => mul3 S (idx S 1 0) (kf j) + eps pf * mul3 S (idx S 1 0) (mR S (kf j))
  have hker : LinearMap.ker M.mulVecLin ≠ ⊥ := by
    apply LinearMap.ker_ne_bot_of_finrank_lt
    simp
    omega
  obtain ⟨μ, h1, h2⟩ := (Submodule.ne_bot_iff _).1 hker
  rw [LinearMap.mem_ker, Matrix.mulVecLin_apply] at h1
  have ha : ∀ a < st.gens.length, ∑ j, μ j * relAt S st.ci (fun b => if b = a then 1 else 0) (kf j) = 0 := by
    intro a ha
    have := congrFun h1 (.inl ⟨a, ha⟩)
    rw [Matrix.mulVec, dotProduct] at this
    refine Eq.trans ?_ this
    exact Finset.sum_congr rfl fun j _ => mul_comm _ _
  have h0 : lam S pf kf μ (idx S 1 0) = 0 := by
    have := congrFun h1 (.inr ())
    rw [Matrix.mulVec, dotProduct] at this
    refine Eq.trans ?_ this
    exact Finset.sum_congr rfl fun j _ => mul_comm _ _
  apply h2
  funext j
  have hj := lam_const hN hS hi hkf μ ha (hkf j)
  rw [h0] at hj
  unfold lam at hj
  rw [Finset.sum_eq_single j] at hj
  · exact (mul_eq_zero.1 hj).resolve_right (coef_ne hN hS hi (hkf j) (hr.nontriv _ (List.getElem_mem j.2)))
  · intro j' _ hne
    have hno : ¬ Orb S pf (kf j') (kf j) := by
      have hp := List.pairwise_iff_getElem.1 hr.disjoint
      rcases lt_or_gt_of_ne (fun e => hne (Fin.ext e) : j'.val ≠ j.val) with h | h
      · exact hp j' j j'.2 j.2 h
      · exact fun ho => hp j j' j.2 j'.2 h (Orb.symm hN hS (hkf j') ho)
    have z1 : mul3 S (kf j) (kf j') = 0 := by
      by_contra hne
      exact hno (Or.inl (mul3_ne hne))
    have z2 : eps pf * mul3 S (kf j) (mR S (kf j')) = 0 := by
      by_cases hpf : pf = 0
      · unfold eps
        rw [if_pos hpf, zero_mul]
      · by_contra hne
        apply hno
        rcases mul3_ne (right_ne_zero_of_mul hne) with e | e | e
        · exact Or.inr ⟨hpf, Or.inl e⟩
        · exact Or.inr ⟨hpf, Or.inr (Or.inr (e.trans (mR_mt_mt hN hS (hkf j')).symm))⟩
        · exact Or.inr ⟨hpf, Or.inr (Or.inl (e.trans (mR_mt hN hS (hkf j')).symm))⟩
    rw [z1, z2]
    ring
  · intro h; exact absurd (Finset.mem_univ j) h

end count

end Eclib.Hom
