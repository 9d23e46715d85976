import Verif.Local.Padic
import Verif.Local.HilbertModel
import Mathlib.FieldTheory.Finite.Basic
import Mathlib.Data.ZMod.Basic

/-! # Solubility of `a x^2 + b y^2 = z^2` over the p-adic numbers -/

namespace Eclib.Local

/-- `a x^2 + b y^2 = z^2` has a non-trivial solution in the `p`-adic numbers -/
def Sol (p : ℕ) [Fact p.Prime] (a b : ℤ) : Prop :=
  ∃ x y z : ℚ_[p], ¬ (x = 0 ∧ y = 0 ∧ z = 0) ∧ (a : ℚ_[p]) * x ^ 2 + (b : ℚ_[p]) * y ^ 2 = z ^ 2

/-- `a x^2 + b y^2 = z^2` has a non-trivial solution in the real numbers -/
def SolReal (a b : ℤ) : Prop :=
  ∃ x y z : ℝ, ¬ (x = 0 ∧ y = 0 ∧ z = 0) ∧ (a : ℝ) * x ^ 2 + (b : ℝ) * y ^ 2 = z ^ 2

variable {p : ℕ} [hp : Fact p.Prime]

theorem Sol.symm {a b : ℤ} (h : Sol p a b) : Sol p b a := by
  obtain ⟨x, y, z, h0, h⟩ := h
  refine ⟨y, x, z, fun hh => h0 ⟨hh.2.1, hh.1, hh.2.2⟩, ?_⟩
  rw [← h]
  ring

theorem sol_comm {a b : ℤ} : Sol p a b ↔ Sol p b a := ⟨Sol.symm, Sol.symm⟩

theorem sol_scale_left {a b s : ℤ} (hs : s ≠ 0) : Sol p (a * s ^ 2) b ↔ Sol p a b := by
  have hs' : (s : ℚ_[p]) ≠ 0 := by exact_mod_cast hs
  constructor
  · rintro ⟨x, y, z, h0, h⟩
    refine ⟨x * s, y, z, fun hh => h0 ⟨?_, hh.2⟩, ?_⟩
    · exact (mul_eq_zero.mp hh.1).resolve_right hs'
    · push_cast at h
      rw [← h]
      ring
  · rintro ⟨x, y, z, h0, h⟩
    refine ⟨x / s, y, z, fun hh => h0 ⟨?_, hh.2⟩, ?_⟩
    · exact (div_eq_zero_iff.mp hh.1).resolve_right hs'
    · push_cast
      rw [← h]
      field_simp

theorem sol_scale_right {a b s : ℤ} (hs : s ≠ 0) : Sol p a (b * s ^ 2) ↔ Sol p a b := by
  rw [sol_comm, sol_scale_left hs, sol_comm]

/-- reduce the exponents of `p` modulo two -/
theorem sol_reduce (u v : ℤ) (k l : ℕ) :
    Sol p ((p : ℤ) ^ k * u) ((p : ℤ) ^ l * v) ↔
      Sol p ((p : ℤ) ^ (k % 2) * u) ((p : ℤ) ^ (l % 2) * v) := by
  have hp0 : (p : ℤ) ≠ 0 := by exact_mod_cast hp.out.ne_zero
  have e : ∀ (w : ℤ) (n : ℕ), (p : ℤ) ^ n * w = ((p : ℤ) ^ (n % 2) * w) * ((p : ℤ) ^ (n / 2)) ^ 2 := by
    intro w n
    have : (p : ℤ) ^ n = (p : ℤ) ^ (n % 2) * ((p : ℤ) ^ (n / 2)) ^ 2 := by
      rw [← pow_mul, ← pow_add]
      congr 1
      omega
    rw [this]
    ring
  rw [e u k, e v l, sol_scale_left (pow_ne_zero _ hp0), sol_scale_right (pow_ne_zero _ hp0)]

/-- a solution with a coordinate `1` in p-adic integers -/
theorem Sol.prim {a b : ℤ} (h : Sol p a b) :
    ∃ x y z : ℤ_[p], (x = 1 ∨ y = 1 ∨ z = 1) ∧
      (a : ℤ_[p]) * x ^ 2 + (b : ℤ_[p]) * y ^ 2 = z ^ 2 := by
  obtain ⟨x, y, z, h0, h⟩ := h
  obtain ⟨x, y, z, h1, h2⟩ := primitive (c := 1) h0 (by rw [h, one_mul])
  refine ⟨x, y, z, h1, ?_⟩
  have : (((a : ℤ_[p]) * x ^ 2 + (b : ℤ_[p]) * y ^ 2 : ℤ_[p]) : ℚ_[p]) = ((z ^ 2 : ℤ_[p]) : ℚ_[p]) := by
    push_cast
    rw [h2, one_mul]
  exact Subtype.ext this

/-- a solution in p-adic integers -/
theorem Sol.of_int {a b : ℤ} {x y z : ℤ_[p]} (h0 : ¬ (x = 0 ∧ y = 0 ∧ z = 0))
    (h : (a : ℤ_[p]) * x ^ 2 + (b : ℤ_[p]) * y ^ 2 = z ^ 2) : Sol p a b := by
  refine ⟨x, y, z, fun hh => h0 ?_, ?_⟩
  · exact ⟨Subtype.ext hh.1, Subtype.ext hh.2.1, Subtype.ext hh.2.2⟩
  · exact_mod_cast congrArg (fun t : ℤ_[p] => (t : ℚ_[p])) h

/-! ### odd primes -/

theorem toZMod_eq_zero_iff (x : ℤ_[p]) : PadicInt.toZMod x = 0 ↔ ∃ y, x = p * y := by
  have : PadicInt.toZMod x = 0 ↔ x ∈ RingHom.ker (PadicInt.toZMod : ℤ_[p] →+* ZMod p) := Iff.rfl
  rw [this, PadicInt.ker_toZMod, PadicInt.maximalIdeal_eq_span_p, Ideal.mem_span_singleton]
  exact Iff.rfl

theorem isSquare_of_padic {a : ℤ} {z : ℤ_[p]} (h : z ^ 2 = (a : ℤ_[p])) : IsSquare (a : ZMod p) := by
  have := congrArg PadicInt.toZMod h
  rw [map_pow, map_intCast] at this
  exact ⟨_, by rw [← this, sq]⟩

theorem padic_of_isSquare (hp2 : p ≠ 2) {a : ℤ} (ha : ¬ (p : ℤ) ∣ a) (h : IsSquare (a : ZMod p)) :
    ∃ z : ℤ_[p], z ^ 2 = (a : ℤ_[p]) := by
  obtain ⟨c, hc⟩ := h
  refine sqrt_odd hp2 (b := (c.val : ℤ)) ha ?_
  rw [← ZMod.intCast_zmod_eq_zero_iff_dvd]
  push_cast
  rw [hc, ZMod.natCast_zmod_val]
  ring

theorem ne_zero_of_not_dvd {a : ℤ} (ha : ¬ (p : ℤ) ∣ a) : (a : ZMod p) ≠ 0 := by
  rwa [Ne, ZMod.intCast_zmod_eq_zero_iff_dvd]

open Polynomial in
/-- units of both sides: always soluble -/
theorem sol_odd_units (hp2 : p ≠ 2) {u v : ℤ} (hu : ¬ (p : ℤ) ∣ u) (hv : ¬ (p : ℤ) ∣ v) :
    Sol p u v := by
  have hu' := ne_zero_of_not_dvd (p := p) hu
  have hv' := ne_zero_of_not_dvd (p := p) hv
  have hodd : Fintype.card (ZMod p) % 2 = 1 := by
    rw [ZMod.card]
    exact Nat.odd_iff.mp (hp.out.odd_of_ne_two hp2)
  obtain ⟨x, y, hxy⟩ := FiniteField.exists_root_sum_quadratic
    (f := C (u : ZMod p) * X ^ 2 + C 0 * X + C 0) (g := C (v : ZMod p) * X ^ 2 + C 0 * X + C (-1))
    (degree_quadratic hu') (degree_quadratic hv') hodd
  simp only [eval_add, eval_mul, eval_C, eval_pow, eval_X, zero_mul, add_zero] at hxy
  have h1 : ((u * (x.val : ℤ) ^ 2 + v * (y.val : ℤ) ^ 2 : ℤ) : ZMod p) = 1 := by
    push_cast
    rw [ZMod.natCast_zmod_val, ZMod.natCast_zmod_val]
    linear_combination hxy
  obtain ⟨z, hz⟩ := padic_of_isSquare hp2 (a := u * (x.val : ℤ) ^ 2 + v * (y.val : ℤ) ^ 2) (by
    rw [← ZMod.intCast_zmod_eq_zero_iff_dvd, h1]
    exact one_ne_zero) (by rw [h1]; exact ⟨1, by ring⟩)
  refine Sol.of_int (x := ((x.val : ℤ) : ℤ_[p])) (y := ((y.val : ℤ) : ℤ_[p])) (z := z) ?_ ?_
  · rintro ⟨-, -, h0⟩
    have h2 := congrArg PadicInt.toZMod hz
    rw [h0, map_pow, map_zero, map_intCast, h1] at h2
    simp at h2
  · rw [hz]
    push_cast
    ring

theorem sol_odd_left (hp2 : p ≠ 2) {u v : ℤ} (hu : ¬ (p : ℤ) ∣ u) (hv : ¬ (p : ℤ) ∣ v) :
    Sol p (p * u) v ↔ IsSquare (v : ZMod p) := by
  have hu' := ne_zero_of_not_dvd (p := p) hu
  have hp0 : (p : ℤ_[p]) ≠ 0 := by exact_mod_cast hp.out.ne_zero
  constructor
  · intro h
    obtain ⟨x, y, z, h1, h2⟩ := h.prim
    have h3 := congrArg PadicInt.toZMod h2
    simp only [map_add, map_mul, map_pow, map_intCast, Int.cast_mul, Int.cast_natCast, map_natCast,
      CharP.cast_eq_zero, zero_mul, zero_add] at h3
    by_cases hy : PadicInt.toZMod y = 0
    · exfalso
      rw [hy] at h3
      have hz : PadicInt.toZMod z = 0 := by
        have : PadicInt.toZMod z ^ 2 = 0 := by rw [← h3]; ring
        exact pow_eq_zero_iff (two_ne_zero) |>.mp this
      obtain ⟨y', rfl⟩ := (toZMod_eq_zero_iff y).mp hy
      obtain ⟨z', rfl⟩ := (toZMod_eq_zero_iff z).mp hz
      have h4 : (u : ℤ_[p]) * x ^ 2 = p * (z' ^ 2 - v * y' ^ 2) := by
        apply mul_left_cancel₀ hp0
        push_cast at h2
        linear_combination h2
      have hx : PadicInt.toZMod x = 0 := by
        have := congrArg PadicInt.toZMod h4
        simp only [map_mul, map_pow, map_intCast, map_natCast, CharP.cast_eq_zero, zero_mul] at this
        rcases mul_eq_zero.mp this with h | h
        · exact absurd h hu'
        · exact pow_eq_zero_iff (two_ne_zero) |>.mp h
      rcases h1 with h1 | h1 | h1
      · rw [h1] at hx; simp at hx
      · rw [h1] at hy; simp at hy
      · rw [h1] at hz; simp at hz
    · refine ⟨PadicInt.toZMod z / PadicInt.toZMod y, ?_⟩
      field_simp
      exact h3
  · intro h
    obtain ⟨z, hz⟩ := padic_of_isSquare hp2 hv h
    refine Sol.of_int (x := 0) (y := 1) (z := z) (by simp) ?_
    rw [hz]
    ring

theorem sol_odd_both (hp2 : p ≠ 2) {u v : ℤ} (hu : ¬ (p : ℤ) ∣ u) (hv : ¬ (p : ℤ) ∣ v) :
    Sol p (p * u) (p * v) ↔ IsSquare ((-(u * v) : ℤ) : ZMod p) := by
  have hu' := ne_zero_of_not_dvd (p := p) hu
  have hv' := ne_zero_of_not_dvd (p := p) hv
  have hp0 : (p : ℤ_[p]) ≠ 0 := by exact_mod_cast hp.out.ne_zero
  have hpp : Prime (p : ℤ) := Nat.prime_iff_prime_int.mp hp.out
  constructor
  · intro h
    obtain ⟨x, y, z, h1, h2⟩ := h.prim
    have hz : PadicInt.toZMod z = 0 := by
      have h3 := congrArg PadicInt.toZMod h2
      simp only [map_add, map_mul, map_pow, map_intCast, Int.cast_mul, Int.cast_natCast, map_natCast,
        CharP.cast_eq_zero, zero_mul, zero_add] at h3
      exact pow_eq_zero_iff (two_ne_zero) |>.mp h3.symm
    obtain ⟨z', rfl⟩ := (toZMod_eq_zero_iff z).mp hz
    have h4 : (u : ℤ_[p]) * x ^ 2 + v * y ^ 2 = p * z' ^ 2 := by
      apply mul_left_cancel₀ hp0
      push_cast at h2
      linear_combination h2
    have h5 := congrArg PadicInt.toZMod h4
    simp only [map_add, map_mul, map_pow, map_intCast, map_natCast, CharP.cast_eq_zero,
      zero_mul] at h5
    by_cases hy : PadicInt.toZMod y = 0
    · exfalso
      rw [hy] at h5
      have hx : PadicInt.toZMod x = 0 := by
        have : (u : ZMod p) * PadicInt.toZMod x ^ 2 = 0 := by
          rw [← h5]; ring
        rcases mul_eq_zero.mp this with h | h
        · exact absurd h hu'
        · exact pow_eq_zero_iff (two_ne_zero) |>.mp h
      rcases h1 with h1 | h1 | h1
      · rw [h1] at hx; simp at hx
      · rw [h1] at hy; simp at hy
      · rw [h1] at hz; simp at hz
    · refine ⟨u * PadicInt.toZMod x / PadicInt.toZMod y, ?_⟩
      push_cast
      field_simp
      linear_combination -h5
  · intro h
    have hnd : ¬ (p : ℤ) ∣ -(u * v) := by
      rw [dvd_neg]
      intro hd
      rcases hpp.dvd_or_dvd hd with h | h
      · exact hu h
      · exact hv h
    obtain ⟨z, hz⟩ := padic_of_isSquare hp2 hnd h
    refine Sol.of_int (x := z) (y := u) (z := 0) ?_ ?_
    · rintro ⟨-, h0, -⟩
      have : u = 0 := by exact_mod_cast h0
      exact hu (this ▸ dvd_zero _)
    · rw [hz]
      push_cast
      ring

/-! ### the prime two -/

/-- reduction modulo eight -/
noncomputable def mod8 : ℤ_[2] →+* ZMod 8 := (PadicInt.toZModPow 3 : ℤ_[2] →+* ZMod (2 ^ 3))

theorem cast8 {u r : ℤ} (h : u % 8 = r) : (u : ZMod 8) = (r : ZMod 8) := by
  rw [← h]
  exact (ZMod.intCast_mod u 8).symm

theorem sol_two_of_square {a b x y : ℤ} (h : (a * x ^ 2 + b * y ^ 2) % 8 = 1) : Sol 2 a b := by
  obtain ⟨z, hz⟩ := sqrt_two h
  refine Sol.of_int (x := (x : ℤ_[2])) (y := (y : ℤ_[2])) (z := z) ?_ ?_
  · rintro ⟨-, -, h0⟩
    rw [h0] at hz
    have : a * x ^ 2 + b * y ^ 2 = 0 := by
      have h1 : ((a * x ^ 2 + b * y ^ 2 : ℤ) : ℤ_[2]) = 0 := by rw [← hz]; ring
      exact_mod_cast h1
    omega
  · rw [hz]
    push_cast
    ring

theorem two_units_aux : ∀ u v : ZMod 8, (u = 3 ∨ u = 7) → (v = 3 ∨ v = 7) →
    ∀ x y z : ZMod 8, (x = 1 ∨ y = 1 ∨ z = 1) → u * x ^ 2 + v * y ^ 2 ≠ z ^ 2 := by
  decide +kernel

theorem two_left_aux : ∀ u v : ZMod 8, (u = 1 ∨ u = 3 ∨ u = 5 ∨ u = 7) →
    (v = 1 ∨ v = 3 ∨ v = 5 ∨ v = 7) → ∀ x y z : ZMod 8, (x = 1 ∨ y = 1 ∨ z = 1) →
    2 * u * x ^ 2 + v * y ^ 2 = z ^ 2 → v = 1 ∨ 2 * u + v = 1 := by
  decide +kernel

theorem two_both_aux : ∀ u v : ZMod 8, (u = 1 ∨ u = 3 ∨ u = 5 ∨ u = 7) →
    (v = 1 ∨ v = 3 ∨ v = 5 ∨ v = 7) → ∀ x y z : ZMod 8, (x = 1 ∨ y = 1) →
    u * x ^ 2 + v * y ^ 2 = 2 * z ^ 2 → u + v = 0 ∨ u + v = 2 := by
  decide +kernel

theorem odd8 {u : ℤ} (h : ¬ (2 : ℤ) ∣ u) : u % 8 = 1 ∨ u % 8 = 3 ∨ u % 8 = 5 ∨ u % 8 = 7 := by omega

theorem odd8' {u : ℤ} (h : ¬ (2 : ℤ) ∣ u) : (u : ZMod 8) = 1 ∨ (u : ZMod 8) = 3 ∨ (u : ZMod 8) = 5 ∨
    (u : ZMod 8) = 7 := by
  rcases odd8 h with h | h | h | h
  · left; rw [cast8 h]; rfl
  · right; left; rw [cast8 h]; rfl
  · right; right; left; rw [cast8 h]; rfl
  · right; right; right; rw [cast8 h]; rfl

theorem mod_of_cast8 {u r : ℤ} (h : (u : ZMod 8) = (r : ZMod 8)) : u % 8 = r % 8 :=
  (ZMod.intCast_eq_intCast_iff' u r 8).mp h

theorem sol_two_units {u v : ℤ} (hu : ¬ (2 : ℤ) ∣ u) (hv : ¬ (2 : ℤ) ∣ v) :
    Sol 2 u v ↔ ¬ (u % 4 = 3 ∧ v % 4 = 3) := by
  constructor
  · rintro h ⟨h1, h2⟩
    obtain ⟨x, y, z, h3, h4⟩ := h.prim
    have h5 := congrArg mod8 h4
    simp only [map_add, map_mul, map_pow, map_intCast] at h5
    refine two_units_aux _ _ ?_ ?_ _ _ _ ?_ h5
    · have : u % 8 = 3 ∨ u % 8 = 7 := by omega
      rcases this with h | h
      · left; rw [cast8 h]; rfl
      · right; rw [cast8 h]; rfl
    · have : v % 8 = 3 ∨ v % 8 = 7 := by omega
      rcases this with h | h
      · left; rw [cast8 h]; rfl
      · right; rw [cast8 h]; rfl
    · rcases h3 with h | h | h <;> simp [h]
  · intro h
    have : u % 8 = 1 ∨ u % 8 = 5 ∨ v % 8 = 1 ∨ v % 8 = 5 := by omega
    rcases this with h1 | h1 | h1 | h1
    · exact sol_two_of_square (x := 1) (y := 0) (by omega)
    · exact sol_two_of_square (x := 1) (y := 2) (by omega)
    · exact sol_two_of_square (x := 0) (y := 1) (by omega)
    · exact sol_two_of_square (x := 2) (y := 1) (by omega)

theorem sol_two_left {u v : ℤ} (hu : ¬ (2 : ℤ) ∣ u) (hv : ¬ (2 : ℤ) ∣ v) :
    Sol 2 (2 * u) v ↔ (v % 8 = 1 ∨ (2 * u + v) % 8 = 1) := by
  constructor
  · intro h
    obtain ⟨x, y, z, h3, h4⟩ := h.prim
    have h5 := congrArg mod8 h4
    simp only [map_add, map_mul, map_pow, map_intCast, Int.cast_mul, Int.cast_ofNat,
      map_ofNat] at h5
    have h6 := two_left_aux _ _ (odd8' hu) (odd8' hv) _ _ _ (by
      rcases h3 with h | h | h
      · exact Or.inl (by rw [h, map_one])
      · exact Or.inr (Or.inl (by rw [h, map_one]))
      · exact Or.inr (Or.inr (by rw [h, map_one]))) h5
    rcases h6 with h6 | h6
    · left
      exact mod_of_cast8 (r := 1) (by rw [h6]; rfl)
    · right
      refine mod_of_cast8 (r := 1) ?_
      push_cast
      rw [h6]
  · rintro (h | h)
    · exact sol_two_of_square (x := 0) (y := 1) (by omega)
    · exact sol_two_of_square (x := 1) (y := 1) (by omega)

theorem sol_two_both {u v : ℤ} (hu : ¬ (2 : ℤ) ∣ u) (hv : ¬ (2 : ℤ) ∣ v) :
    Sol 2 (2 * u) (2 * v) ↔ ((u + v) % 8 = 0 ∨ (u + v) % 8 = 2) := by
  have h20 : (2 : ℤ_[2]) ≠ 0 := by norm_num
  constructor
  · intro h
    obtain ⟨x, y, z, h3, h4⟩ := h.prim
    have hz : PadicInt.toZMod z = 0 := by
      have h3 := congrArg PadicInt.toZMod h4
      have e2 : (2 : ZMod 2) = 0 := rfl
      simp only [map_add, map_mul, map_pow, map_intCast, Int.cast_mul, Int.cast_ofNat,
        map_ofNat, e2, zero_mul, zero_add] at h3
      exact pow_eq_zero_iff (two_ne_zero) |>.mp h3.symm
    obtain ⟨z', rfl⟩ := (toZMod_eq_zero_iff z).mp hz
    have h5 : (u : ℤ_[2]) * x ^ 2 + v * y ^ 2 = 2 * z' ^ 2 := by
      apply mul_left_cancel₀ h20
      push_cast at h4
      linear_combination h4
    have h6 := congrArg mod8 h5
    simp only [map_add, map_mul, map_pow, map_intCast, map_ofNat] at h6
    have h7 := two_both_aux _ _ (odd8' hu) (odd8' hv) _ _ _ (by
      rcases h3 with h | h | h
      · exact Or.inl (by rw [h, map_one])
      · exact Or.inr (by rw [h, map_one])
      · exfalso
        rw [h] at hz
        simp at hz) h6
    rcases h7 with h7 | h7
    · left
      refine mod_of_cast8 (r := 0) ?_
      push_cast
      rw [h7]
    · right
      refine mod_of_cast8 (r := 2) ?_
      push_cast
      rw [h7]
  · intro h
    have key : ∃ c : ℤ, (c = 0 ∨ c = 1) ∧ (u * (2 * c ^ 2 - v)) % 8 = 1 := by
      have hmul : ∀ c : ℤ, (u + v) % 8 = (2 * c ^ 2) % 8 → (u * (2 * c ^ 2 - v)) % 8 = 1 := by
        intro c hc
        have h1 : (8 : ℤ) ∣ (2 * c ^ 2 - v) - u := by omega
        obtain ⟨t, ht⟩ := h1
        have h2 : (u * (2 * c ^ 2 - v)) = u * u + 8 * (u * t) := by
          have : 2 * c ^ 2 - v = u + 8 * t := by omega
          rw [this]
          ring
        have h3 : u * u % 8 = 1 := by
          rw [Int.mul_emod]
          rcases odd8 hu with h | h | h | h <;> rw [h] <;> rfl
        omega
      rcases h with h | h
      · exact ⟨0, Or.inl rfl, hmul 0 (by omega)⟩
      · exact ⟨1, Or.inr rfl, hmul 1 (by omega)⟩
    obtain ⟨c, -, hc⟩ := key
    obtain ⟨w, hw⟩ := sqrt_two hc
    refine Sol.of_int (x := w) (y := u) (z := 2 * c * u) ?_ ?_
    · rintro ⟨-, h0, -⟩
      have : u = 0 := by exact_mod_cast h0
      exact hu (this ▸ dvd_zero _)
    · rw [hw]
      push_cast
      ring

/-! ### the real place -/

theorem solReal_iff {a b : ℤ} (ha : a ≠ 0) (hb : b ≠ 0) : SolReal a b ↔ (0 < a ∨ 0 < b) := by
  constructor
  · rintro ⟨x, y, z, h0, h⟩
    by_contra hn
    push Not at hn
    have ha' : (a : ℝ) < 0 := by exact_mod_cast lt_of_le_of_ne hn.1 ha
    have hb' : (b : ℝ) < 0 := by exact_mod_cast lt_of_le_of_ne hn.2 hb
    apply h0
    have hx : x ^ 2 = 0 := by
      by_contra hx
      have : 0 < x ^ 2 := lt_of_le_of_ne (sq_nonneg x) (Ne.symm hx)
      nlinarith [sq_nonneg y, sq_nonneg z, mul_pos (neg_pos.mpr ha') this,
        mul_nonneg (neg_pos.mpr hb').le (sq_nonneg y)]
    have hy : y ^ 2 = 0 := by
      by_contra hy
      have : 0 < y ^ 2 := lt_of_le_of_ne (sq_nonneg y) (Ne.symm hy)
      nlinarith [sq_nonneg x, sq_nonneg z, mul_pos (neg_pos.mpr hb') this,
        mul_nonneg (neg_pos.mpr ha').le (sq_nonneg x)]
    rw [hx, hy] at h
    refine ⟨pow_eq_zero_iff two_ne_zero |>.mp hx, pow_eq_zero_iff two_ne_zero |>.mp hy, ?_⟩
    exact pow_eq_zero_iff two_ne_zero |>.mp (by rw [← h]; ring)
  · rintro (h | h)
    · have h' : (0 : ℝ) < a := by exact_mod_cast h
      refine ⟨1, 0, Real.sqrt a, by simp, ?_⟩
      rw [Real.sq_sqrt h'.le]
      ring
    · have h' : (0 : ℝ) < b := by exact_mod_cast h
      refine ⟨0, 1, Real.sqrt b, by simp, ?_⟩
      rw [Real.sq_sqrt h'.le]
      ring

end Eclib.Local
