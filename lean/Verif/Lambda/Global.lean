import Verif.Lambda.Denom
import Mathlib.Algebra.BigOperators.Group.List.Basic

/-!
# C130: the local heights added by `height` (heights.cc)
-/

namespace Eclib.Lambda

open Eclib.Curve P2 Marith Eclib.Tate WeierstrassCurve

/-- `height` (heights.cc:80-117), from the computation of `zroot` on: `E` and `P` are `Emin` and `Pmin`, `rh` is the value of
`realheight`, `bad_p` the list of bad primes; real numbers in place of `bigfloat`. The cases of points already treated and of torsion
points, and the change to the minimal model (heights.cc:41-78), are not part of this definition. -/
noncomputable def heightLoc (rh : ℝ) (E : Cd) (P : P2) (badp : List ℤ) : ℝ :=
  let zroot : ℤ := Int.gcd P.X P.Z
  let h := rh + 2 * Real.log zroot
  badp.foldl (fun h p => if !div p zroot then h + pheight E P p * Real.log p else h) h

variable {p : ℕ}

/-- **C130**: at a prime of good reduction that does not divide the denominator the local height is 0. -/
theorem C130_good (hp : p.Prime) {E : Cv} (hE : E.W.Δ ≠ 0) {P : P2} (hOn : OnE E P) (hz : ¬ (p : ℤ) ∣ P.Z) (hd : ¬ (p : ℤ) ∣ E.W.Δ) :
    pheight (Cd.ofAi E) P p = 0 := by
  rw [pheight_eq hp hE hz, if_neg]
  intro hs
  have hl : Lev1 (p : ℤ) (atPt E.W P) :=
    ⟨by rw [atPt_a3]; exact hs.2.mul_left _, by rw [atPt_a4]; exact hs.1.mul_left _, by rw [atPt_a6 E P hOn]; exact dvd_zero _⟩
  have := hl.disc
  rw [atPt_disc, dvd_scale hp hz] at this
  exact hd this

theorem foldl_if (c : ℤ → Bool) (f : ℤ → ℝ) (l : List ℤ) (h : ℝ) :
    l.foldl (fun h p => if c p then h + f p else h) h = h + (l.map fun p => if c p then f p else 0).sum := by
  induction l generalizing h with
  | nil => simp
  | cons a l ih =>
    rw [List.foldl_cons, ih, List.map_cons, List.sum_cons]
    split <;> ring

/-- **C130** (`height`): the value is the real height plus the sum of the local heights over any finite set of primes which has all the
primes dividing the discriminant or the denominator. -/
theorem C130_sum {E : Cv} (hE : E.W.Δ ≠ 0) {P : P2} (hOn : OnE E P) (hr : Reduced P) (hz0 : P.Z ≠ 0) (rh : ℝ) (L : List ℕ)
    (hL : L.Nodup) (hbad : ∀ q, q ∈ L ↔ q.Prime ∧ (q : ℤ) ∣ E.W.Δ) (S : Finset ℕ) (hS : ∀ q ∈ S, q.Prime)
    (hS' : ∀ q : ℕ, q.Prime → ((q : ℤ) ∣ E.W.Δ ∨ (q : ℤ) ∣ P.Z) → q ∈ S) :
    heightLoc rh (Cd.ofAi E) P (L.map (fun q : ℕ => (q : ℤ))) = rh + ∑ q ∈ S, (pheight (Cd.ofAi E) P q : ℝ) * Real.log q := by
  obtain ⟨u, D, hD, hx, hz', hc, hg, -⟩ := shape hOn hr hz0
  have hDz : ∀ q : ℕ, q.Prime → ((q : ℤ) ∣ (D : ℤ) ↔ (q : ℤ) ∣ P.Z) := by
    intro q hq
    rw [hz']
    exact ⟨fun h => h.trans (dvd_pow_self _ (by norm_num)), fun h => (Nat.prime_iff_prime_int.1 hq).dvd_of_dvd_pow h⟩
  have hdiv : ∀ q ∈ L, (!div (q : ℤ) (D : ℤ)) = true ↔ ¬ (q : ℤ) ∣ P.Z := by
    intro q hq
    have hq' := ((hbad q).1 hq).1
    rw [← hDz q hq']
    unfold div
    rw [if_neg (by exact_mod_cast hq'.ne_zero)]
    simp only [Bool.not_eq_true', decide_eq_false_iff_not]
    exact not_congr ⟨Int.dvd_of_fmod_eq_zero, Int.fmod_eq_zero_of_dvd⟩
  unfold heightLoc
  simp only
  rw [foldl_if (fun q => !div q ((Int.gcd P.X P.Z : ℕ) : ℤ)) (fun q => (pheight (Cd.ofAi E) P q : ℝ) * Real.log q), hg, List.map_map,
    add_assoc]
  congr 1
  rw [← Finset.sum_filter_add_sum_filter_not S (fun q : ℕ => (q : ℤ) ∣ P.Z)]
  congr 1
  · have hs := C127_sum hE hOn hr hz0
    rw [hg] at hs
    rw [Int.cast_natCast, ← hs]
    apply Finset.sum_congr _ (fun _ _ => rfl)
    ext q
    rw [Nat.mem_primeFactors, Finset.mem_filter]
    constructor
    · rintro ⟨h1, h2, -⟩
      have h3 : (q : ℤ) ∣ P.Z := Int.natCast_dvd.2 h2
      exact ⟨hS' q h1 (Or.inr h3), h3⟩
    · rintro ⟨h1, h2⟩
      exact ⟨hS q h1, Int.natCast_dvd.1 h2, by simpa using hz0⟩
  · have e1 : (L.map ((fun q : ℤ => if (!div q (D : ℤ)) = true then (pheight (Cd.ofAi E) P q : ℝ) * Real.log q else 0) ∘ fun q : ℕ => (q : ℤ))) =
        L.map (fun q : ℕ => if ¬ (q : ℤ) ∣ P.Z then (pheight (Cd.ofAi E) P q : ℝ) * Real.log q else 0) := by
      apply List.map_congr_left
      intro q hq
      simp only [Function.comp, hdiv q hq, Int.cast_natCast]
    rw [e1, ← List.sum_toFinset _ hL, ← Finset.sum_filter]
    apply Finset.sum_subset
    · intro q hq
      rw [Finset.mem_filter, List.mem_toFinset, hbad] at hq
      rw [Finset.mem_filter]
      exact ⟨hS' q hq.1.1 (Or.inl hq.1.2), hq.2⟩
    · intro q hq hn
      rw [Finset.mem_filter] at hq
      rw [Finset.mem_filter, List.mem_toFinset, hbad] at hn
      have hqp := hS q hq.1
      have : ¬ (q : ℤ) ∣ E.W.Δ := fun h => hn ⟨⟨hqp, h⟩, hq.2⟩
      rw [C130_good hqp hE hOn hq.2 this]
      simp

/-- the hypotheses for 37a and the point (1/4,-3/8): the bad prime is 37 and 2 is in the denominator -/
example (rh : ℝ) := C130_sum (E := ⟨0, 0, 1, -1, 0⟩) (by decide +kernel) (P := ⟨2, -3, 8⟩) (by simp [OnE]) ⟨by decide, by decide⟩ (by decide) rh
  [37] (by simp) (by
    have h : (⟨0, 0, 1, -1, 0⟩ : Cv).W.Δ = 37 := by decide +kernel
    have h37 : Nat.Prime 37 := by decide +kernel
    intro q
    rw [h, List.mem_singleton]
    constructor
    · rintro rfl; exact ⟨h37, by norm_num⟩
    · rintro ⟨h1, h2⟩
      exact (Nat.prime_dvd_prime_iff_eq h1 h37).1 (by exact_mod_cast h2)) {2, 37} (by
    intro q hq
    rcases Finset.mem_insert.1 hq with rfl | hq
    · decide
    · rw [Finset.mem_singleton.1 hq]; decide +kernel) (by
    have h : (⟨0, 0, 1, -1, 0⟩ : Cv).W.Δ = 37 := by decide +kernel
    have h37 : Nat.Prime 37 := by decide +kernel
    intro q hq h1
    rw [h] at h1
    rcases h1 with h1 | h1
    · rw [(Nat.prime_dvd_prime_iff_eq hq h37).1 (by exact_mod_cast h1)]; simp
    · have h2 : q ∣ 2 ^ 3 := by
        have h3 : (q : ℤ) ∣ ((2 ^ 3 : ℕ) : ℤ) := h1
        exact_mod_cast h3
      rw [(Nat.prime_dvd_prime_iff_eq hq Nat.prime_two).1 (hq.dvd_of_dvd_pow h2)]; simp)

end Eclib.Lambda
