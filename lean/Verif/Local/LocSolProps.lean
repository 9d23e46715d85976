import Verif.Local.LocSolSteps
import Mathlib.Tactic.NormNum.Prime

/-! # Local solubility (C44) -/

namespace Eclib.LocSol

open Eclib.Local
open Eclib.Marith (val posmod legendre)

variable {p : ℕ} [hp : Fact p.Prime]

/-! ### specification -/

/-- the curve `y^2 = a x^4 + b x^3 z + c x^2 z^2 + d x z^3 + e z^4` has a point over `ℚ_p` -/
def HasPoint (p : ℕ) [Fact p.Prime] (a b c d e : ℤ) : Prop :=
  ∃ x y z : ℚ_[p], ¬ (x = 0 ∧ z = 0) ∧
    y ^ 2 = a * x ^ 4 + b * x ^ 3 * z + c * x ^ 2 * z ^ 2 + d * x * z ^ 3 + e * z ^ 4

/-- `27` times the discriminant of the quartic, `4 I^3 - J^2` -/
def disc27 (a b c d e : ℤ) : ℤ :=
  4 * (12 * a * e - 3 * b * d + c ^ 2) ^ 3 -
    (72 * a * c * e + 9 * b * c * d - 27 * a * d ^ 2 - 27 * e * b ^ 2 - 2 * c ^ 3) ^ 2

/-! ### classes modulo powers of `p` -/

theorem solNear_shift {a b c d e x y : ℤ} {nu : ℕ} (k : ℤ) (h : y = x + (p : ℤ) ^ nu * k) :
    SolNear p a b c d e y nu ↔ SolNear p a b c d e x nu := by
  subst h
  constructor
  · rintro ⟨t, ht⟩
    refine ⟨k + t, ?_⟩
    have : (x : ℤ_[p]) + (p : ℤ_[p]) ^ nu * (k + t) =
        ((x + (p : ℤ) ^ nu * k : ℤ) : ℤ_[p]) + (p : ℤ_[p]) ^ nu * t := by push_cast; ring
    rw [this]; exact ht
  · rintro ⟨t, ht⟩
    refine ⟨t - k, ?_⟩
    have : ((x + (p : ℤ) ^ nu * k : ℤ) : ℤ_[p]) + (p : ℤ_[p]) ^ nu * (t - k) =
        (x : ℤ_[p]) + (p : ℤ_[p]) ^ nu * t := by push_cast; ring
    rw [this]; exact ht

theorem solNear_split {a b c d e x : ℤ} {nu : ℕ} : SolNear p a b c d e x nu ↔
    ∃ i : ℕ, i < p ∧ SolNear p a b c d e (x + i * (p : ℤ) ^ nu) (nu + 1) := by
  constructor
  · rintro ⟨t, ht⟩
    obtain ⟨n, hn, h⟩ := PadicInt.exists_mem_range t
    rw [PadicInt.maximalIdeal_eq_span_p, Ideal.mem_span_singleton] at h
    obtain ⟨s, hs⟩ := h
    refine ⟨n, hn, s, ?_⟩
    have : ((x + n * (p : ℤ) ^ nu : ℤ) : ℤ_[p]) + (p : ℤ_[p]) ^ (nu + 1) * s =
        (x : ℤ_[p]) + (p : ℤ_[p]) ^ nu * t := by
      push_cast
      rw [pow_succ]
      linear_combination -(p : ℤ_[p]) ^ nu * hs
    rw [this]; exact ht
  · rintro ⟨i, -, t, ht⟩
    refine ⟨i + p * t, ?_⟩
    have : ((x + i * (p : ℤ) ^ nu : ℤ) : ℤ_[p]) + (p : ℤ_[p]) ^ (nu + 1) * t =
        (x : ℤ_[p]) + (p : ℤ_[p]) ^ nu * (i + p * t) := by
      push_cast
      rw [pow_succ]
      ring
    rw [← this]; exact ht

/-! ### the loops -/

theorem search_spec (f : ℤ → Option Bool) (q : ℤ) (n : ℕ) (x : ℤ) (r : Bool) (x' : ℤ)
    (h : search f q n x = some (r, x')) :
    (r = true → ∃ i : ℕ, i < n ∧ f (x + i * q) = some true) ∧
    (r = false → x' = x + n * q ∧ ∀ i : ℕ, i < n → f (x + i * q) = some false) := by
  induction n generalizing x with
  | zero =>
    simp only [search, Option.some.injEq, Prod.mk.injEq] at h
    obtain ⟨rfl, rfl⟩ := h
    exact ⟨by simp, fun _ => ⟨by simp, by simp⟩⟩
  | succ n ih =>
    rw [search] at h
    cases hf : f x with
    | none => rw [hf] at h; simp at h
    | some s =>
      rw [hf] at h
      cases s with
      | true =>
        simp only [Option.some.injEq, Prod.mk.injEq] at h
        obtain ⟨rfl, rfl⟩ := h
        exact ⟨fun _ => ⟨0, by omega, by simpa using hf⟩, by simp⟩
      | false =>
        obtain ⟨h1, h2⟩ := ih _ h
        constructor
        · intro hr
          obtain ⟨i, hi, h3⟩ := h1 hr
          refine ⟨i + 1, by omega, ?_⟩
          rw [← h3]
          congr 1
          push_cast
          ring
        · intro hr
          obtain ⟨h3, h4⟩ := h2 hr
          refine ⟨by rw [h3]; push_cast; ring, ?_⟩
          intro i hi
          cases i with
          | zero => simpa using hf
          | succ i =>
            rw [← h4 i (by omega)]
            congr 1
            push_cast
            ring

theorem search_total (f : ℤ → Option Bool) (q : ℤ) (n : ℕ) (x : ℤ) (h : ∀ y, f y ≠ none) :
    search f q n x ≠ none := by
  induction n generalizing x with
  | zero => simp [search]
  | succ n ih =>
    rw [search]
    cases hf : f x with
    | none => exact absurd hf (h x)
    | some s =>
      cases s with
      | true => simp
      | false => exact ih _

theorem first_spec (a b c d e x : ℤ) (nu : ℕ) :
    ∃ r, (if (p : ℤ) = 2 then lemma7 a b c d e p nu x else lemma6 a b c d e p nu x) = some r ∧
      (r = 1 ∨ r = 0 ∨ r = -1) ∧ (r = 1 → SolNear p a b c d e x nu) ∧
      (r = -1 → ¬ SolNear p a b c d e x nu) ∧
      (r = 0 → (p : ℤ) ^ (nu - 1) ∣ gx a b c d e x ∧ (p : ℤ) ^ (nu - 1) ∣ gdashx a b c d x) := by
  by_cases h : (p : ℤ) = 2
  · rw [if_pos h]
    have h2 : p = 2 := by exact_mod_cast h
    subst h2
    exact lemma7_spec a b c d e x nu
  · rw [if_neg h]
    have h2 : p ≠ 2 := by exact_mod_cast h
    obtain ⟨r, h1, h3, h4, h5, h6⟩ := lemma6_spec (p := p) a b c d e x nu
    refine ⟨r, h1, h3, h4, h5 h2, fun h7 => ?_⟩
    have hd : (p : ℤ) ^ (nu - 1) ∣ (p : ℤ) ^ nu := pow_dvd_pow _ (by omega)
    exact ⟨hd.trans (h6 h7).1, hd.trans (h6 h7).2⟩

theorem tryRes_spec (a b c d e x : ℤ) (nu : ℕ) :
    ∃ r, tryRes a b c d e p nu x = some r ∧ (r = true → SolNear p a b c d e x (nu + 1)) := by
  obtain ⟨r6, h61, -, h62, -⟩ := lemma6_spec (p := p) a b c d e x (nu + 1)
  have main : ∃ r, (lemma6 a b c d e p (nu + 1) x).map (fun l => decide (l = 1)) = some r ∧
      (r = true → SolNear p a b c d e x (nu + 1)) := by
    rw [h61]
    exact ⟨_, rfl, fun h => h62 (by simpa using h)⟩
  unfold tryRes
  by_cases h : (p : ℤ) = 2
  · rw [if_pos h]
    have h2 : p = 2 := by exact_mod_cast h
    subst h2
    obtain ⟨r, h1, h3, h4, -⟩ := lemma7_spec a b c d e x (nu + 1)
    rw [show lemma7 a b c d e ((2 : ℕ) : ℤ) (nu + 1) x = some r from h1]
    by_cases hr : r = 1
    · subst hr
      exact ⟨true, by simp, fun _ => h4 rfl⟩
    · simp only [if_neg hr]
      exact main
  · rw [if_neg h]
    exact main

theorem firstLoop_spec (a b c d e x : ℤ) (nu : ℕ) :
    ∃ r y, firstLoop a b c d e p nu x = some (r, y) ∧ (r = true → SolNear p a b c d e x nu) ∧
      (r = false → ∃ k : ℤ, y = x + (p : ℤ) ^ (nu + 1) * k) := by
  unfold firstLoop
  split_ifs with h
  · have ht := search_total (tryRes a b c d e p nu) ((p : ℤ) ^ nu) (p : ℤ).toNat x (by
      intro y
      obtain ⟨r, hr, -⟩ := tryRes_spec (p := p) a b c d e y nu
      rw [hr]; simp)
    obtain ⟨⟨r, y⟩, hry⟩ := Option.ne_none_iff_exists'.mp ht
    refine ⟨r, y, hry, ?_⟩
    obtain ⟨h1, h2⟩ := search_spec _ _ _ _ _ _ hry
    rw [Int.toNat_natCast] at h1 h2
    constructor
    · intro hr
      obtain ⟨i, hi, h3⟩ := h1 hr
      obtain ⟨r', hr', h4⟩ := tryRes_spec (p := p) a b c d e (x + i * (p : ℤ) ^ nu) nu
      rw [hr', Option.some.injEq] at h3
      exact solNear_split.mpr ⟨i, hi, h4 h3⟩
    · intro hr
      exact ⟨1, by rw [(h2 hr).1, pow_succ]; ring⟩
  · exact ⟨false, x, rfl, by simp, fun _ => ⟨0, by simp⟩⟩

theorem zpsol_sound (a b c d e : ℤ) (fuel : ℕ) (x : ℤ) (nu : ℕ) (r : Bool)
    (h : zpsol a b c d e p fuel x nu = some r) : r = true ↔ SolNear p a b c d e x nu := by
  induction fuel generalizing x nu r with
  | zero => simp [zpsol] at h
  | succ fuel ih =>
    rw [zpsol] at h
    obtain ⟨s, h1, h2, h3, h4, -⟩ := first_spec (p := p) a b c d e x nu
    rw [h1] at h
    simp only at h
    rcases h2 with rfl | rfl | rfl
    · simp only [if_true, Option.some.injEq] at h
      subst h
      simp [h3 rfl]
    · simp only [zero_ne_one, if_false, show ¬ ((0 : ℤ) = -1) by norm_num] at h
      obtain ⟨r', y, h5, h6, h7⟩ := firstLoop_spec (p := p) a b c d e x nu
      rw [h5] at h
      cases r' with
      | true =>
        simp only [Option.some.injEq] at h
        subst h
        simp [h6 rfl]
      | false =>
        simp only at h
        obtain ⟨⟨r2, y2⟩, h8, h9⟩ := Option.map_eq_some_iff.mp h
        simp only at h9
        subst h9
        obtain ⟨k, rfl⟩ := h7 rfl
        obtain ⟨h10, h11⟩ := search_spec _ _ _ _ _ _ h8
        rw [Int.toNat_natCast] at h10 h11
        have hsh : ∀ i : ℕ, SolNear p a b c d e (x + (p : ℤ) ^ (nu + 1) * k + i * (p : ℤ) ^ nu)
            (nu + 1) ↔ SolNear p a b c d e (x + i * (p : ℤ) ^ nu) (nu + 1) := fun i =>
          solNear_shift k (by ring)
        rw [solNear_split]
        constructor
        · intro hr
          obtain ⟨i, hi, h12⟩ := h10 hr
          exact ⟨i, hi, (hsh i).mp ((ih _ _ _ h12).mp rfl)⟩
        · rintro ⟨i, hi, h12⟩
          by_contra hr
          have := (ih _ _ _ ((h11 (by simpa using hr)).2 i hi)).mpr ((hsh i).mpr h12)
          simp at this
    · simp only [show ¬ ((-1 : ℤ) = 1) by norm_num, if_false, if_true, Option.some.injEq] at h
      subst h
      simp [h4 rfl]

/-! ### termination -/

/-- a common divisor of `g(x)` and `g'(x)` divides the discriminant -/
theorem dvd_disc (a b c d e x m : ℤ) (h1 : m ∣ gx a b c d e x) (h2 : m ∣ gdashx a b c d x) :
    m ∣ disc27 a b c d e := by
  obtain ⟨s, hs⟩ := h1
  obtain ⟨t, ht⟩ := h2
  -- the coefficients of `g(X+x)`
  have key : disc27 a b c d e = disc27 a (4 * a * x + b) (6 * a * x ^ 2 + 3 * b * x + c)
      (gdashx a b c d x) (gx a b c d e x) := by
    unfold disc27 gdashx gx
    ring
  rw [key, hs, ht]
  generalize 4 * a * x + b = B
  generalize 6 * a * x ^ 2 + 3 * b * x + c = C
  have e1 : (m * s : ℤ) ≡ 0 [ZMOD m] := (Int.modEq_zero_iff_dvd).mpr ⟨s, rfl⟩
  have e2 : (m * t : ℤ) ≡ 0 [ZMOD m] := (Int.modEq_zero_iff_dvd).mpr ⟨t, rfl⟩
  rw [← Int.modEq_zero_iff_dvd]
  have e3 : disc27 a B C (m * t) (m * s) ≡ disc27 a B C 0 0 [ZMOD m] := by
    unfold disc27
    gcongr
  refine e3.trans ?_
  have : disc27 a B C 0 0 = 0 := by unfold disc27; ring
  rw [this]

theorem zpsol_total (a b c d e : ℤ) (hd : disc27 a b c d e ≠ 0) (fuel : ℕ) (x : ℤ) (nu : ℕ)
    (h : (disc27 a b c d e).natAbs + 2 ≤ fuel + nu) (h0 : 0 < fuel) :
    zpsol a b c d e p fuel x nu ≠ none := by
  induction fuel generalizing x nu with
  | zero => omega
  | succ fuel ih =>
    rw [zpsol]
    obtain ⟨s, h1, h2, -, -, h3⟩ := first_spec (p := p) a b c d e x nu
    rw [h1]
    simp only
    rcases h2 with rfl | rfl | rfl
    · simp
    · simp only [zero_ne_one, if_false, show ¬ ((0 : ℤ) = -1) by norm_num]
      obtain ⟨r', y, h5, -, -⟩ := firstLoop_spec (p := p) a b c d e x nu
      rw [h5]
      cases r' with
      | true => simp
      | false =>
        simp only
        have hnu : nu - 1 < (disc27 a b c d e).natAbs := by
          have h4 := dvd_disc a b c d e x _ (h3 rfl).1 (h3 rfl).2
          have h6 := Int.natAbs_dvd_natAbs.mpr h4
          have h7 := Nat.le_of_dvd (Int.natAbs_pos.mpr hd) h6
          rw [Int.natAbs_pow, Int.natAbs_natCast] at h7
          exact lt_of_lt_of_le (Nat.lt_pow_self hp.out.one_lt) h7
        rw [Ne, Option.map_eq_none_iff]
        exact search_total _ _ _ _ (fun z => ih z (nu + 1) (by omega) (by omega))
    · simp

/-! ### points over `ℚ_p` -/

theorem isSq_of_padic {g : ℤ_[p]} {y : ℚ_[p]} (h : y ^ 2 = (g : ℚ_[p])) : IsSq g := by
  have h1 : ‖y‖ ≤ 1 := by
    have h2 : ‖y ^ 2‖ ≤ 1 := by rw [h]; exact PadicInt.norm_le_one g
    rw [norm_pow] at h2
    by_contra h3
    have := one_lt_pow₀ (not_le.mp h3) (n := 2) (by norm_num)
    linarith
  exact ⟨⟨y, h1⟩, Subtype.ext h⟩

theorem coe_G (a b c d e : ℤ) (t : ℤ_[p]) : ((G a b c d e t : ℤ_[p]) : ℚ_[p]) =
    a * (t : ℚ_[p]) ^ 4 + b * (t : ℚ_[p]) ^ 3 + c * (t : ℚ_[p]) ^ 2 + d * (t : ℚ_[p]) + e := by
  unfold G
  push_cast
  rfl

theorem hasPoint_iff (a b c d e : ℤ) : HasPoint p a b c d e ↔
    SolNear p a b c d e 0 0 ∨ SolNear p e d c b a 0 1 := by
  constructor
  · rintro ⟨x, y, z, h0, h⟩
    rcases le_or_gt ‖x‖ ‖z‖ with h1 | h1
    · left
      have hz : z ≠ 0 := by
        rintro rfl
        rw [norm_zero] at h1
        exact h0 ⟨norm_le_zero_iff.mp h1, rfl⟩
      have hn : ‖x / z‖ ≤ 1 := by
        rw [norm_div, div_le_one (norm_pos_iff.mpr hz)]; exact h1
      obtain ⟨q, hq⟩ : ∃ q : ℤ_[p], (q : ℚ_[p]) = x / z := ⟨⟨x / z, hn⟩, rfl⟩
      refine ⟨q, isSq_of_padic (y := y / z ^ 2) ?_⟩
      have e1 : (((0 : ℤ) : ℤ_[p]) + (p : ℤ_[p]) ^ 0 * q) = q := by simp
      rw [e1, coe_G, hq]
      field_simp
      rw [h]
      ring
    · right
      have hx : x ≠ 0 := by
        rintro rfl
        rw [norm_zero] at h1
        exact absurd (norm_nonneg z) (not_le.mpr h1)
      have hn : ‖z / x‖ < 1 := by
        rw [norm_div, div_lt_one (norm_pos_iff.mpr hx)]; exact h1
      obtain ⟨q, hq⟩ : ∃ q : ℤ_[p], (q : ℚ_[p]) = z / x := ⟨⟨z / x, hn.le⟩, rfl⟩
      obtain ⟨t, ht⟩ := (norm_lt_one_iff q).mp (by rw [PadicInt.norm_def, hq]; exact hn)
      refine ⟨t, isSq_of_padic (y := y / x ^ 2) ?_⟩
      have e1 : (((0 : ℤ) : ℤ_[p]) + (p : ℤ_[p]) ^ 1 * t) = q := by rw [ht]; simp
      rw [e1, coe_G, hq]
      field_simp
      rw [h]
      ring
  · rintro (⟨t, y, hy⟩ | ⟨t, y, hy⟩)
    · have hy' := congrArg (fun u : ℤ_[p] => (u : ℚ_[p])) hy
      simp only [coe_G] at hy'
      refine ⟨((((0 : ℤ) : ℤ_[p]) + (p : ℤ_[p]) ^ 0 * t : ℤ_[p]) : ℚ_[p]), y, 1, by simp, ?_⟩
      push_cast at hy' ⊢
      rw [hy']
      ring
    · have hy' := congrArg (fun u : ℤ_[p] => (u : ℚ_[p])) hy
      simp only [coe_G] at hy'
      refine ⟨1, y, ((((0 : ℤ) : ℤ_[p]) + (p : ℤ_[p]) ^ 1 * t : ℤ_[p]) : ℚ_[p]), by simp, ?_⟩
      push_cast at hy' ⊢
      rw [hy']
      ring

/-! ### the theorems -/

/-- whenever `qpsoluble` returns, its answer is right -/
theorem C44_answer (a b c d e : ℤ) (fuel : ℕ) (r : Bool)
    (h : qpsoluble fuel a b c d e p = some r) : r = true ↔ HasPoint p a b c d e := by
  unfold qpsoluble at h
  rw [hasPoint_iff]
  cases h1 : zpsol a b c d e p fuel 0 0 with
  | none => rw [h1] at h; simp at h
  | some s =>
    rw [h1] at h
    have h2 := zpsol_sound _ _ _ _ _ _ _ _ _ h1
    cases s with
    | true =>
      simp only [Option.some.injEq] at h
      subst h
      simp [h2.mp rfl]
    | false =>
      simp only at h
      have h3 := zpsol_sound _ _ _ _ _ _ _ _ _ h
      have h4 : ¬ SolNear p a b c d e 0 0 := by rw [← h2]; simp
      simp [h4, h3]

theorem disc27_rev (a b c d e : ℤ) : disc27 e d c b a = disc27 a b c d e := by
  unfold disc27; ring

theorem qpsoluble_bound (a b c d e : ℤ) (hd : disc27 a b c d e ≠ 0) {fuel : ℕ}
    (hf : fuel ≥ (disc27 a b c d e).natAbs + 2) :
    ∃ r, qpsoluble fuel a b c d e p = some r ∧ (r = true ↔ HasPoint p a b c d e) := by
  have h1 := zpsol_total (p := p) a b c d e hd fuel 0 0 (by omega) (by omega)
  have h2 := zpsol_total (p := p) e d c b a (by rwa [disc27_rev]) fuel 0 1
    (by rw [disc27_rev]; omega) (by omega)
  have h3 : ∃ r, qpsoluble fuel a b c d e p = some r := by
    unfold qpsoluble
    obtain ⟨s, hs⟩ := Option.ne_none_iff_exists'.mp h1
    rw [hs]
    cases s with
    | true => exact ⟨true, rfl⟩
    | false => exact Option.ne_none_iff_exists'.mp h2
  obtain ⟨r, hr⟩ := h3
  exact ⟨r, hr, C44_answer a b c d e fuel r hr⟩

/-- for a quartic without a repeated factor `qpsoluble` returns, and decides solubility -/
theorem C44_qpsoluble (a b c d e : ℤ) (hd : disc27 a b c d e ≠ 0) :
    ∃ F, ∀ fuel ≥ F, ∃ r, qpsoluble fuel a b c d e p = some r ∧ (r = true ↔ HasPoint p a b c d e) :=
  ⟨(disc27 a b c d e).natAbs + 2, fun _ hf => qpsoluble_bound a b c d e hd hf⟩

/-- the same below the cross-over for `new_qpsoluble`, whatever the other method does -/
theorem C44_new_qpsoluble (ss : ℤ → ℤ → ℤ → ℤ → ℤ → ℤ → Option Bool) (a b c d e : ℤ)
    (hd : disc27 a b c d e ≠ 0) (hlt : p < 1000) :
    ∃ F, ∀ fuel ≥ F, ∃ r, newQpsoluble ss fuel a b c d e p = some r ∧
      (r = true ↔ HasPoint p a b c d e) := by
  obtain ⟨F, h⟩ := C44_qpsoluble (p := p) a b c d e hd
  refine ⟨F, fun fuel hf => ?_⟩
  unfold newQpsoluble crossOverP
  rw [if_pos (by exact_mod_cast hlt)]
  exact h fuel hf

instance fact7 : Fact (Nat.Prime 7) := ⟨by norm_num⟩

/-- a case meeting the hypothesis, insoluble at `7` -/
example : ¬ HasPoint 7 3 0 0 0 21 := by
  have h := C44_answer (p := 7) 3 0 0 0 21 5 false (by decide +kernel)
  simpa using h

example : disc27 3 0 0 0 21 ≠ 0 := by decide

/-- another, soluble at `7` -/
example : HasPoint 7 3 0 0 0 3 := by
  exact (C44_answer (p := 7) 3 0 0 0 3 5 true (by decide +kernel)).mp rfl

/-- insoluble at `2` -/
example : ¬ HasPoint 2 3 0 0 0 2 := by
  have h := C44_answer (p := 2) 3 0 0 0 2 9 false (by decide +kernel)
  simpa using h

/-! ### the condition on the discriminant cannot be dropped -/

omit hp in
theorem zpsol_true (a b c d e : ℤ) (hp2 : (p : ℤ) ≠ 2)
    (h6 : ∀ nu x, lemma6 a b c d e p nu x ≠ some 1) (fuel : ℕ) (x : ℤ) (nu : ℕ) :
    zpsol a b c d e p fuel x nu ≠ some true := by
  induction fuel generalizing x nu with
  | zero => simp [zpsol]
  | succ fuel ih =>
    intro h
    rw [zpsol, if_neg hp2] at h
    cases h1 : lemma6 a b c d e p nu x with
    | none => rw [h1] at h; simp at h
    | some r =>
      rw [h1] at h
      have hr : r ≠ 1 := by
        rintro rfl
        exact h6 nu x h1
      simp only [if_neg hr] at h
      split_ifs at h
      · simp at h
      · cases h2 : firstLoop a b c d e p nu x with
        | none => rw [h2] at h; simp at h
        | some ry =>
          obtain ⟨r', y⟩ := ry
          rw [h2] at h
          cases r' with
          | true =>
            unfold firstLoop at h2
            split_ifs at h2
            · obtain ⟨i, -, hi⟩ := (search_spec _ _ _ _ _ _ h2).1 rfl
              rw [tryRes, if_neg hp2] at hi
              obtain ⟨l, hl, hl'⟩ := Option.map_eq_some_iff.mp hi
              simp only [decide_eq_true_eq] at hl'
              subst hl'
              exact h6 _ _ hl
            · simp at h2
          | false =>
            simp only at h
            obtain ⟨⟨r2, y2⟩, h8, h9⟩ := Option.map_eq_some_iff.mp h
            simp only at h9
            subst h9
            obtain ⟨i, -, hi⟩ := (search_spec _ _ _ _ _ _ h8).1 rfl
            exact ih _ _ hi

theorem lemma6_three_sq (a b c d e x m k : ℤ) (nu : ℕ) (hm : m ≠ 0)
    (h1 : gx a b c d e x = 3 * m ^ 2) (h2 : gdashx a b c d x = m * k) :
    lemma6 a b c d e 7 nu x ≠ some 1 := by
  obtain ⟨u, hu, hpu⟩ := val_factor (p := 7) hm
  push_cast at hu hpu
  generalize val 7 m = v at hu
  have h7 : Prime (7 : ℤ) := by
    have := Nat.prime_iff_prime_int.mp (show Nat.Prime 7 by norm_num)
    exact_mod_cast this
  have hgu : ¬ (7 : ℤ) ∣ 3 * u ^ 2 := by
    intro hd
    rcases h7.dvd_or_dvd hd with h | h
    · omega
    · exact hpu (h7.dvd_of_dvd_pow h)
  have hg : gx a b c d e x = 7 ^ (2 * v) * (3 * u ^ 2) := by
    rw [h1, hu, mul_pow, ← pow_mul, mul_comm v 2]; ring
  have hg0 : gx a b c d e x ≠ 0 := by
    rw [h1]; positivity
  have hv : val 7 (gx a b c d e x) = 2 * v :=
    Eclib.Marith.exactPower_unique (Eclib.Marith.val_spec 7 _ (by norm_num) hg0)
      (Eclib.Marith.exact_of_factor (by norm_num) hg hgu)
  have hns : psquare (gx a b c d e x) 7 = some false := by
    obtain ⟨r, hr, hr'⟩ := psquare_spec (p := 7) (gx a b c d e x)
    rw [show psquare (gx a b c d e x) 7 = some r from hr]
    cases r with
    | false => rfl
    | true =>
      exfalso
      have h3 := hr'.mp rfl
      rw [hg] at h3
      push_cast at h3
      have h4 : ‖((3 * u ^ 2 : ℤ) : ℤ_[7])‖ = 1 := cast_unit (p := 7) (by exact_mod_cast hgu)
      push_cast at h4
      have h5 := ((isSq_pow_mul (p := 7) (2 * v) h4).mp (by exact_mod_cast h3)).2
      obtain ⟨z, hz⟩ := h5
      have h6 := isSquare_of_padic (p := 7) (a := 3 * u ^ 2) (z := z) (by rw [hz]; push_cast; rfl)
      have h8 : (u : ZMod 7) ≠ 0 := ne_zero_of_not_dvd (p := 7) (by exact_mod_cast hpu)
      push_cast at h6
      revert h6 h8
      generalize (u : ZMod 7) = w
      revert w
      decide
  unfold lemma6
  rw [hns]
  simp only [ne_eq, Option.some.injEq]
  unfold lemma6Tail
  rw [hv]
  simp only
  by_cases hd : gdashx a b c d x = 0
  · rw [if_pos hd]
    split_ifs <;> norm_num
  · rw [if_neg hd]
    have hmu : v ≤ val 7 (gdashx a b c d x) := by
      by_contra hlt
      refine (Eclib.Marith.val_spec 7 (gdashx a b c d x) (by norm_num) hd).2 ?_
      generalize val 7 (gdashx a b c d x) = j at hlt
      rw [h2, hu]
      exact ((pow_dvd_pow _ (by omega)).mul_right _).mul_right _
    rw [if_neg (by push_cast; omega)]
    split_ifs <;> norm_num

/-- for `3 (x^2-2z^2)^2`, which has a repeated factor, `qpsoluble` does not return at `p = 7`,
although there is a point `(√2 : 0 : 1)` over `ℚ_7` -/
theorem C44_repeated_diverges (fuel : ℕ) : qpsoluble fuel 3 0 (-12) 0 12 7 = none := by
  have hpt : HasPoint 7 3 0 (-12) 0 12 := by
    obtain ⟨z, hz⟩ := sqrt_odd (p := 7) (by norm_num) (a := 2) (b := 3) (by norm_num) (by norm_num)
    have hz' : (z : ℚ_[7]) ^ 2 = 2 := by
      have := congrArg (fun u : ℤ_[7] => (u : ℚ_[7])) hz
      push_cast at this
      exact_mod_cast this
    refine ⟨z, 0, 1, by simp, ?_⟩
    push_cast
    linear_combination (-3 * (z : ℚ_[7]) ^ 2 + 6) * hz'
  have n1 : ∀ nu x, lemma6 3 0 (-12) 0 12 ((7 : ℕ) : ℤ) nu x ≠ some 1 := by
    intro nu x
    refine lemma6_three_sq _ _ _ _ _ x (x ^ 2 - 2) (12 * x) nu ?_ (by unfold gx; ring)
      (by unfold gdashx; ring)
    intro h
    have h1 : x ≤ 1 := by nlinarith
    have h2 : -1 ≤ x := by nlinarith
    interval_cases x <;> omega
  have n2 : ∀ nu x, lemma6 12 0 (-12) 0 3 ((7 : ℕ) : ℤ) nu x ≠ some 1 := by
    intro nu x
    refine lemma6_three_sq _ _ _ _ _ x (1 - 2 * x ^ 2) (-24 * x) nu ?_ (by unfold gx; ring)
      (by unfold gdashx; ring)
    intro h
    omega
  cases h : qpsoluble fuel 3 0 (-12) 0 12 7 with
  | none => rfl
  | some r =>
    exfalso
    have hr := (C44_answer (p := 7) 3 0 (-12) 0 12 fuel r h).mpr hpt
    subst hr
    unfold qpsoluble at h
    cases h1 : zpsol 3 0 (-12) 0 12 7 fuel 0 0 with
    | none => rw [h1] at h; simp at h
    | some s =>
      cases s with
      | true => exact zpsol_true (p := 7) _ _ _ _ _ (by norm_num) n1 fuel 0 0 h1
      | false =>
        rw [h1] at h
        exact zpsol_true (p := 7) _ _ _ _ _ (by norm_num) n2 fuel 0 1 h

end Eclib.LocSol
