import Verif.Twoadic.Model
import Verif.Local.LocSolLemmas

/-!
# C87, C88: existence of 2-adic points
-/

namespace Eclib.Twoadic

open Eclib.LocSol Eclib.Local

/-! ### specification -/

/-- the value of a cubic polynomial with integer coefficients at a 2-adic integer -/
noncomputable def ev (a b c d : ℤ) (x : ℤ_[2]) : ℤ_[2] := a * x ^ 3 + b * x ^ 2 + c * x + d

/-- some value at a 2-adic integer is a square -/
def HasSq (a b c d : ℤ) : Prop := ∃ x : ℤ_[2], IsSq (ev a b c d x)

/-- the question of case 1: `x = 2 (mod 4)` with `x³ + 4a x + 4b` a square -/
def Spec1 (a b : ℤ) : Prop := ∃ x : ℤ_[2], (∃ y, x = 4 * y + 2) ∧ IsSq (x ^ 3 + 4 * (a : ℤ_[2]) * x + 4 * (b : ℤ_[2]))

/-- the question of case 2: `x = 1 (mod 4)` with `x³ + (4a+1) x + (4b+2)` a square -/
def Spec2 (a b : ℤ) : Prop := ∃ x : ℤ_[2], (∃ y, x = 4 * y + 1) ∧ IsSq (x ^ 3 + (4 * (a : ℤ_[2]) + 1) * x + (4 * (b : ℤ_[2]) + 2))

/-! ### 2-adic lemmas -/

/-- the value of a polynomial at an integer -/
def evz (a b c d x : ℤ) : ℤ := a * x ^ 3 + b * x ^ 2 + c * x + d

theorem mod_eight (x : ℤ_[2]) : ∃ (r : ℤ) (y : ℤ_[2]), 0 ≤ r ∧ r < 8 ∧ x = r + 8 * y := by
  refine ⟨(x.appr 3 : ℤ), ?_⟩
  have h := PadicInt.appr_spec 3 x
  rw [Ideal.mem_span_singleton] at h
  obtain ⟨y, hy⟩ := h
  have hl := PadicInt.appr_lt x 3
  refine ⟨y, by positivity, by exact_mod_cast hl, ?_⟩
  push_cast at hy ⊢
  norm_num at hy
  linear_combination hy

theorem ev_mod (a b c d r : ℤ) (y : ℤ_[2]) : ∃ s, ev a b c d (r + 8 * y) = (evz a b c d r : ℤ) + 8 * s := by
  refine ⟨a * (3 * r ^ 2 * y + 24 * r * y ^ 2 + 64 * y ^ 3) + b * (2 * r * y + 8 * y ^ 2) + c * y, ?_⟩
  unfold ev evz
  push_cast
  ring

theorem sq_mod {n : ℤ} {s : ℤ_[2]} (h : IsSq ((n : ℤ_[2]) + 8 * s)) : n % 8 = 0 ∨ n % 8 = 1 ∨ n % 8 = 4 := by
  obtain ⟨z, hz⟩ := h
  obtain ⟨r, y, -, -, rfl⟩ := mod_eight z
  have h1 : ((n - r ^ 2 : ℤ) : ℤ_[2]) = ((2 : ℕ) : ℤ_[2]) ^ 3 * (2 * r * y + 8 * y ^ 2 - s) := by
    push_cast
    linear_combination -hz
  have h2 := dvd_of_padic (p := 2) h1
  have h3 : (8 : ℤ) ∣ n - r ^ 2 := by simpa using h2
  have h4 : r ^ 2 % 8 = 0 ∨ r ^ 2 % 8 = 1 ∨ r ^ 2 % 8 = 4 := by
    have : r % 8 = 0 ∨ r % 8 = 1 ∨ r % 8 = 2 ∨ r % 8 = 3 ∨ r % 8 = 4 ∨ r % 8 = 5 ∨ r % 8 = 6 ∨ r % 8 = 7 := by omega
    rcases this with h | h | h | h | h | h | h | h <;> simp [sq, Int.mul_emod, h]
  omega

/-- a value 1 modulo 8 -/
theorem hasSq_of_one {a b c d : ℤ} (k : ℤ) (h : evz a b c d k % 8 = 1) : HasSq a b c d := by
  refine ⟨k, ?_⟩
  obtain ⟨z, hz⟩ := sqrt_two h
  refine ⟨z, hz.trans ?_⟩
  unfold ev evz
  push_cast
  rfl

/-- no value is a square modulo 8 -/
theorem not_hasSq {a b c d : ℤ} (h : ∀ r, 0 ≤ r → r < 8 → evz a b c d r % 8 ≠ 0 ∧ evz a b c d r % 8 ≠ 1 ∧ evz a b c d r % 8 ≠ 4) :
    ¬HasSq a b c d := by
  rintro ⟨x, hx⟩
  obtain ⟨r, y, h0, h8, rfl⟩ := mod_eight x
  obtain ⟨s, hs⟩ := ev_mod a b c d r y
  rw [hs] at hx
  have h1 := sq_mod hx
  have h2 := h r h0 h8
  omega

theorem four_mul {w : ℤ_[2]} : IsSq (4 * w) ↔ IsSq w := by
  constructor
  · rintro ⟨z, hz⟩
    obtain ⟨r, y, -, -, rfl⟩ := mod_eight z
    -- r is even
    have h1 : ((r ^ 2 : ℤ) : ℤ_[2]) = ((2 : ℕ) : ℤ_[2]) ^ 2 * (w - 4 * r * y - 16 * y ^ 2) := by
      push_cast
      linear_combination hz
    have h2 := dvd_of_padic (p := 2) h1
    have h3 : (4 : ℤ) ∣ r ^ 2 := by simpa using h2
    have h4 : (2 : ℤ) ∣ r := by
      have : (2 : ℤ) ∣ r ^ 2 := Dvd.dvd.trans (by norm_num) h3
      exact Int.prime_two.dvd_of_dvd_pow this
    obtain ⟨k, rfl⟩ := h4
    refine ⟨k + 4 * y, ?_⟩
    have h5 : (4 : ℤ_[2]) ≠ 0 := by norm_num
    apply mul_left_cancel₀ h5
    rw [← hz]
    push_cast
    ring
  · rintro ⟨z, rfl⟩
    exact ⟨2 * z, by ring⟩

/-- a square can occur only at even `x` -/
theorem hasSq_even {a b c d a' b' c' d' : ℤ} (h : ∀ r, 0 ≤ r → r < 8 → r % 2 = 1 → evz a b c d r % 8 ≠ 0 ∧ evz a b c d r % 8 ≠ 1 ∧ evz a b c d r % 8 ≠ 4)
    (he : ∀ x : ℤ_[2], ev a b c d (2 * x) = 4 * ev a' b' c' d' x) : HasSq a b c d ↔ HasSq a' b' c' d' := by
  constructor
  · rintro ⟨x, hx⟩
    obtain ⟨r, y, h0, h8, rfl⟩ := mod_eight x
    by_cases hr : r % 2 = 1
    · obtain ⟨s, hs⟩ := ev_mod a b c d r y
      rw [hs] at hx
      have h1 := sq_mod hx
      have h2 := h r h0 h8 hr
      omega
    · obtain ⟨k, hk⟩ : ∃ k, r = 2 * k := ⟨r / 2, by omega⟩
      subst hk
      have : ((2 * k : ℤ) : ℤ_[2]) + 8 * y = 2 * (k + 4 * y) := by push_cast; ring
      rw [this, he, four_mul] at hx
      exact ⟨_, hx⟩
  · rintro ⟨x, hx⟩
    exact ⟨2 * x, by rw [he, four_mul]; exact hx⟩

/-- a square can occur only at odd `x` -/
theorem hasSq_odd {a b c d a' b' c' d' : ℤ} (h : ∀ r, 0 ≤ r → r < 8 → r % 2 = 0 → evz a b c d r % 8 ≠ 0 ∧ evz a b c d r % 8 ≠ 1 ∧ evz a b c d r % 8 ≠ 4)
    (he : ∀ x : ℤ_[2], ev a b c d (2 * x + 1) = 4 * ev a' b' c' d' x) : HasSq a b c d ↔ HasSq a' b' c' d' := by
  constructor
  · rintro ⟨x, hx⟩
    obtain ⟨r, y, h0, h8, rfl⟩ := mod_eight x
    by_cases hr : r % 2 = 0
    · obtain ⟨s, hs⟩ := ev_mod a b c d r y
      rw [hs] at hx
      have h1 := sq_mod hx
      have h2 := h r h0 h8 hr
      omega
    · obtain ⟨k, hk⟩ : ∃ k, r = 2 * k + 1 := ⟨r / 2, by omega⟩
      subst hk
      have : ((2 * k + 1 : ℤ) : ℤ_[2]) + 8 * y = 2 * (k + 4 * y) + 1 := by push_cast; ring
      rw [this, he, four_mul] at hx
      exact ⟨_, hx⟩
  · rintro ⟨x, hx⟩
    exact ⟨2 * x + 1, by rw [he, four_mul]; exact hx⟩

theorem odd_norm {n : ℤ} (h : n % 2 = 1) : ‖(n : ℤ_[2])‖ = 1 := cast_unit (p := 2) (by push_cast; omega)

/-- a root by Hensel's lemma, the derivative being a unit -/
theorem hasSq_root {a b c d k : ℤ} (h : evz a b c d k % 2 = 0) (h' : (3 * a * k ^ 2 + 2 * b * k + c) % 2 = 1) : HasSq a b c d := by
  obtain ⟨m, hm⟩ : ∃ m, evz a b c d k = 2 * m := ⟨evz a b c d k / 2, by omega⟩
  obtain ⟨t, ht⟩ := hensel_lin (p := 2) (m : ℤ_[2]) ((3 * a * k ^ 2 + 2 * b * k + c : ℤ) : ℤ_[2]) (3 * a * k + b) (2 * a) 0 (odd_norm h')
  refine ⟨k + 2 * t, 0, ?_⟩
  have hm' : ((evz a b c d k : ℤ) : ℤ_[2]) = 2 * m := by rw [hm]; push_cast; rfl
  unfold evz at hm'
  unfold ev
  push_cast at hm' ht
  linear_combination -2 * ht - hm'

/-- a root by Hensel's lemma, the derivative being twice a unit -/
theorem hasSq_root2 {a b c d k : ℤ} (h : evz a b c d k % 8 = 0) (h' : (3 * a * k ^ 2 + 2 * b * k + c) % 4 = 2) : HasSq a b c d := by
  obtain ⟨m, hm⟩ : ∃ m, evz a b c d k = 8 * m := ⟨evz a b c d k / 8, by omega⟩
  obtain ⟨n, hn⟩ : ∃ n, 3 * a * k ^ 2 + 2 * b * k + c = 2 * n := ⟨(3 * a * k ^ 2 + 2 * b * k + c) / 2, by omega⟩
  obtain ⟨t, ht⟩ := hensel_lin (p := 2) (m : ℤ_[2]) (n : ℤ_[2]) (3 * a * k + b) (4 * a) 0 (odd_norm (by omega))
  refine ⟨k + 4 * t, 0, ?_⟩
  have hm' : ((evz a b c d k : ℤ) : ℤ_[2]) = 8 * m := by rw [hm]; push_cast; rfl
  have hn' : ((3 * a * k ^ 2 + 2 * b * k + c : ℤ) : ℤ_[2]) = 2 * n := by rw [hn]; push_cast; rfl
  unfold evz at hm'
  unfold ev
  push_cast at hm' hn' ht
  linear_combination -8 * ht - hm' - 4 * t * hn'

/-! ### exact shifts and divisions -/

theorem shr1 (big : Bool) {x : ℤ} (h : x % 2 = 0) : 2 * shr big x 1 = x := by
  obtain ⟨k, rfl⟩ : ∃ k, x = 2 * k := ⟨x / 2, by omega⟩
  unfold shr
  cases big
  · simp only [pow_one, Bool.false_eq_true, if_false, Int.mul_fdiv_cancel_left k (by norm_num : (2 : ℤ) ≠ 0)]
  · simp only [pow_one, if_true, Int.mul_tdiv_cancel_left k (by norm_num : (2 : ℤ) ≠ 0)]

theorem shr2 (big : Bool) {x : ℤ} (h : x % 4 = 0) : 4 * shr big x 2 = x := by
  obtain ⟨k, rfl⟩ : ∃ k, x = 4 * k := ⟨x / 4, by omega⟩
  unfold shr
  have e : (2 : ℤ) ^ 2 = 4 := by norm_num
  cases big
  · simp only [e, Bool.false_eq_true, if_false, Int.mul_fdiv_cancel_left k (by norm_num : (4 : ℤ) ≠ 0)]
  · simp only [e, if_true, Int.mul_tdiv_cancel_left k (by norm_num : (4 : ℤ) ≠ 0)]

theorem quo_exact (big : Bool) {x n : ℤ} (hn : n ≠ 0) (h : n ∣ x) : n * quo big x n = x := by
  obtain ⟨k, rfl⟩ := h
  unfold quo
  cases big
  · simp only [Bool.false_eq_true, if_false, Int.mul_tdiv_cancel_left k hn]
  · simp only [if_true, Int.mul_fdiv_cancel_left k hn]

/-! ### case 1 -/

/-- what one iteration of the loop of case 1 does -/
theorem step1 (a b c d : ℤ) :
    (c % 2 = 1 → (HasSq (4 * a) (4 * b + 2) (2 * c) d ↔ d % 4 = 0 ∨ d % 4 = 1)) ∧
    (c % 2 = 0 → d % 2 = 1 → (HasSq (4 * a) (4 * b + 2) (2 * c) d ↔ d % 8 = 1 ∨ (4 * a + 4 * b + 2 * c - 1) % 8 = d % 8)) ∧
    (∀ c' d', 2 * c' = c → 4 * d' = d → (HasSq (4 * a) (4 * b + 2) (2 * c) d ↔ HasSq (4 * (2 * a)) (4 * b + 2) (2 * c') d')) ∧
    (∀ e d', 2 * e = c → 4 * d' = d + 2 →
      (HasSq (4 * a) (4 * b + 2) (2 * c) d ↔ HasSq (4 * (2 * a)) (4 * (3 * a + b) + 2) (2 * (3 * a + 2 * b + e + 1)) (a + b + e + d'))) := by
  refine ⟨fun hc => ?_, fun hc hd => ?_, fun c' d' hc hd => ?_, fun e d' hc hd => ?_⟩
  · by_cases h : d % 4 = 0 ∨ d % 4 = 1
    · refine ⟨fun _ => h, fun _ => ?_⟩
      rcases h with h | h
      · -- a root
        by_cases h8 : d % 8 = 0
        · exact hasSq_root2 (k := 0) (by simp only [evz]; omega) (by omega)
        · exact hasSq_root2 (k := 2) (by simp only [evz]; omega) (by omega)
      · have h5 : d % 8 = 1 ∨ (4 * a + (4 * b + 2) + 2 * c + d) % 8 = 1 ∨ (-(4 * a) + (4 * b + 2) - 2 * c + d) % 8 = 1 ∨
            (4 * (4 * b + 2) + 2 * (2 * c) + d) % 8 = 1 := by omega
        rcases h5 with h5 | h5 | h5 | h5
        · exact hasSq_of_one 0 (by simp only [evz]; omega)
        · exact hasSq_of_one 1 (by simp only [evz]; omega)
        · exact hasSq_of_one (-1) (by simp only [evz]; omega)
        · exact hasSq_of_one 2 (by simp only [evz]; omega)
    · refine ⟨fun h' => absurd h' (not_hasSq fun r h0 h8 => ?_), fun h' => absurd h' h⟩
      interval_cases r <;> simp only [evz] <;> omega
  · by_cases h : d % 8 = 1 ∨ (4 * a + 4 * b + 2 * c - 1) % 8 = d % 8
    · refine ⟨fun _ => h, fun _ => ?_⟩
      rcases h with h | h
      · exact hasSq_of_one 0 (by simp only [evz]; omega)
      · exact hasSq_of_one 1 (by simp only [evz]; omega)
    · refine ⟨fun h' => absurd h' (not_hasSq fun r h0 h8 => ?_), fun h' => absurd h' h⟩
      interval_cases r <;> simp only [evz] <;> omega
  · refine hasSq_even (fun r h0 h8 hr => ?_) fun x => ?_
    · interval_cases r <;> simp only [evz] <;> omega
    · rw [← hc, ← hd]
      unfold ev
      push_cast
      ring
  · refine hasSq_odd (fun r h0 h8 hr => ?_) fun x => ?_
    · interval_cases r <;> simp only [evz] <;> omega
    · have hd' : d = 4 * d' - 2 := by omega
      rw [← hc, hd']
      unfold ev
      push_cast
      ring

theorem loop1_spec (big : Bool) : ∀ (n : ℕ) (a b c d : ℤ) (r : Bool), loop1 big n a b c d = some r →
    (r = true ↔ HasSq (4 * a) (4 * b + 2) (2 * c) d) := by
  intro n
  induction n with
  | zero => intro a b c d r h; simp [loop1] at h
  | succ n ih =>
    intro a b c d r h
    obtain ⟨s1, s2, s3, s4⟩ := step1 a b c d
    unfold loop1 at h
    simp only [low] at h
    have e84 : d % 8 % 4 = d % 4 := by omega
    simp only [e84] at h
    by_cases hc : c % 2 = 0
    · rw [if_neg (by omega)] at h
      by_cases hd : d % 2 = 1
      · rw [if_pos (by omega)] at h
        rw [s2 hc hd, ← Option.some.inj h]
        simp
      · rw [if_neg (by omega)] at h
        by_cases hd4 : d % 4 = 0
        · rw [if_pos hd4] at h
          rw [s3 _ _ (shr1 big hc) (shr2 big hd4)]
          exact ih _ _ _ _ r h
        · rw [if_neg hd4] at h
          rw [s4 _ _ (quo_exact big (by norm_num) (by omega)) (quo_exact big (by norm_num) (by omega))]
          exact ih _ _ _ _ r h
    · rw [if_pos (by omega)] at h
      rw [s1 (by omega), ← Option.some.inj h]
      simp

/-- the discriminant of `x³ + Ax + B`, up to sign -/
def disc (A B : ℤ) : ℤ := 4 * A ^ 3 + 27 * B ^ 2

theorem disc_dvd {A B X m : ℤ} (h0 : m ∣ X ^ 3 + A * X + B) (h1 : m ∣ 3 * X ^ 2 + A) : m ∣ disc A B := by
  have : disc A B = (-18 * A * X + 27 * B) * (X ^ 3 + A * X + B) + (6 * A * X ^ 2 - 9 * B * X + 4 * A ^ 2) * (3 * X ^ 2 + A) := by
    unfold disc
    ring
  rw [this]
  exact dvd_add (h0.mul_left _) (h1.mul_left _)

/-- the loop ends: while it runs, the discriminant is divisible by `2^k` -/
theorem loop1_ends (big : Bool) {A B : ℤ} : ∀ (n k : ℕ) (b c d X : ℤ), 3 * X = 4 * b + 2 → 3 * X ^ 2 + A = 8 * 2 ^ k * c →
    X ^ 3 + A * X + B = 16 * 4 ^ k * d → ¬(2 : ℤ) ^ (n + k) ∣ disc A B → ∃ r, loop1 big n (2 ^ k) b c d = some r := by
  intro n
  induction n with
  | zero =>
    intro k b c d X h1 h2 h3 h4
    exfalso
    apply h4
    rw [Nat.zero_add]
    refine disc_dvd (X := X) ⟨16 * 2 ^ k * d, ?_⟩ ⟨8 * c, ?_⟩
    · rw [h3, show (4 : ℤ) ^ k = 2 ^ k * 2 ^ k by rw [← mul_pow]; norm_num]; ring
    · rw [h2]; ring
  | succ n ih =>
    intro k b c d X h1 h2 h3 h4
    unfold loop1
    simp only [low]
    have e84 : d % 8 % 4 = d % 4 := by omega
    simp only [e84]
    have h4' : ¬(2 : ℤ) ^ (n + (k + 1)) ∣ disc A B := by rwa [show n + (k + 1) = n + 1 + k by omega]
    have e2 : 2 * (2 : ℤ) ^ k = 2 ^ (k + 1) := by rw [pow_succ]; ring
    by_cases hc : c % 2 = 0
    · rw [if_neg (by omega)]
      by_cases hd : d % 2 = 1
      · rw [if_pos (by omega)]
        exact ⟨_, rfl⟩
      · rw [if_neg (by omega)]
        by_cases hd4 : d % 4 = 0
        · rw [if_pos hd4, e2]
          refine ih (k + 1) b _ _ X h1 ?_ ?_ h4'
          · rw [h2, pow_succ]
            have := shr1 big hc
            linear_combination -(8 * 2 ^ k) * this
          · rw [h3, pow_succ]
            have := shr2 big hd4
            linear_combination -(16 * 4 ^ k) * this
        · rw [if_neg hd4, e2]
          have q1 := quo_exact big (x := c) (n := 2) (by norm_num) (by omega)
          have q2 := quo_exact big (x := d + 2) (n := 4) (by norm_num) (by omega)
          have e4 : (4 : ℤ) ^ k = 2 ^ k * 2 ^ k := by rw [← mul_pow]; norm_num
          refine ih (k + 1) _ _ _ (X + 4 * 2 ^ k) ?_ ?_ ?_ h4'
          · linear_combination h1
          · rw [pow_succ]
            linear_combination h2 + 8 * 2 ^ k * h1 - 8 * 2 ^ k * q1
          · rw [pow_succ 4 k, e4]
            rw [e4] at h3
            linear_combination h3 + 4 * 2 ^ k * h2 + 16 * (2 ^ k) ^ 2 * h1 - 32 * (2 ^ k) ^ 2 * q1 - 16 * (2 ^ k) ^ 2 * q2
    · rw [if_pos (by omega)]
      exact ⟨_, rfl⟩

theorem spec1_iff (a b : ℤ) : Spec1 a b ↔ HasSq 16 24 (4 * (a + 3)) (2 * a + b + 2) := by
  have key : ∀ y : ℤ_[2], (4 * y + 2) ^ 3 + 4 * a * (4 * y + 2) + 4 * b = 4 * ev 16 24 (4 * (a + 3)) (2 * a + b + 2) y := by
    intro y
    unfold ev
    push_cast
    ring
  constructor
  · rintro ⟨x, ⟨y, rfl⟩, hx⟩
    rw [key, four_mul] at hx
    exact ⟨y, hx⟩
  · rintro ⟨y, hy⟩
    exact ⟨4 * y + 2, ⟨y, rfl⟩, by rw [key, four_mul]; exact hy⟩

/-- **C87.**  Whenever `case1(a,b)` returns, it returns 1 if and only if there is a 2-adic integer `x = 2 (mod 4)` for which
`x³ + 4a x + 4b` is a square. -/
theorem C87_case1 (big : Bool) (fuel : ℕ) (a b : ℤ) (r : Bool) (h : case1 big fuel a b = some r) : r = true ↔ Spec1 a b := by
  rw [spec1_iff]
  unfold case1 at h
  simp only [low] at h
  generalize hc : a + 3 = c at h ⊢
  generalize hd : 2 * a + b + 2 = d at h ⊢
  have e84 : d % 8 % 4 = d % 4 := by omega
  simp only [e84] at h
  by_cases h23 : d % 4 = 2 ∨ d % 4 = 3
  · rw [if_pos h23] at h
    rw [← Option.some.inj h]
    simp only [Bool.false_eq_true, false_iff]
    refine not_hasSq fun r h0 h8 => ?_
    interval_cases r <;> simp only [evz] <;> omega
  · rw [if_neg h23] at h
    by_cases h1 : d % 4 = 1
    · rw [if_pos h1] at h
      rw [← Option.some.inj h]
      by_cases hv : c % 2 = 0 ∧ d % 8 ≠ 1
      · simp only [hv.1, hv.2, Bool.or_eq_true, bne_self_eq_false, Bool.false_eq_true, false_or, beq_iff_eq, false_iff]
        refine not_hasSq fun r h0 h8 => ?_
        interval_cases r <;> simp only [evz] <;> omega
      · have : HasSq 16 24 (4 * c) d := by
          by_cases h8 : d % 8 = 1
          · exact hasSq_of_one 0 (by simp only [evz]; omega)
          · exact hasSq_of_one 1 (by simp only [evz]; omega)
        simp only [this, iff_true, Bool.or_eq_true, bne_iff_ne, beq_iff_eq]
        omega
    · rw [if_neg h1] at h
      by_cases hc2 : c % 2 = 0
      · rw [if_neg (by omega)] at h
        have hs := loop1_spec big fuel 1 1 _ _ r h
        rw [hs]
        have s1 := shr1 big hc2
        have s2 := shr2 big (x := d) (by omega)
        have key : ∀ x : ℤ_[2], ev 16 24 (4 * c) d x = 4 * ev (4 * 1) (4 * 1 + 2) (2 * shr big c 1) (shr big d 2) x := by
          intro x
          conv_lhs => rw [← s1, ← s2]
          unfold ev
          push_cast
          ring
        unfold HasSq
        simp only [key, four_mul]
      · rw [if_pos hc2] at h
        rw [← Option.some.inj h]
        simp only [true_iff]
        obtain ⟨d', hd'⟩ : ∃ d', d = 4 * d' := ⟨d / 4, by omega⟩
        have : HasSq 4 6 c d' := by
          by_cases he : d' % 2 = 0
          · exact hasSq_root (k := 0) (by simp only [evz]; omega) (by omega)
          · exact hasSq_root (k := 1) (by simp only [evz]; omega) (by omega)
        obtain ⟨x, hx⟩ := this
        refine ⟨x, ?_⟩
        rw [show ev 16 24 (4 * c) d x = 4 * ev 4 6 c d' x by rw [hd']; unfold ev; push_cast; ring, four_mul]
        exact hx

/-- **C87.**  `case1(a,b)` returns if the discriminant of `x³ + 4a x + 4b` is not 0, after a number of iterations at most its exponent of 2. -/
theorem C87_case1_terminates (big : Bool) (a b : ℤ) (n : ℕ) (h : ¬(2 : ℤ) ^ n ∣ disc (4 * a) (4 * b)) : ∃ r, case1 big n a b = some r := by
  unfold case1
  simp only [low]
  have e84 : (2 * a + b + 2) % 8 % 4 = (2 * a + b + 2) % 4 := by omega
  simp only [e84]
  by_cases h23 : (2 * a + b + 2) % 4 = 2 ∨ (2 * a + b + 2) % 4 = 3
  · rw [if_pos h23]; exact ⟨_, rfl⟩
  · rw [if_neg h23]
    by_cases h1 : (2 * a + b + 2) % 4 = 1
    · rw [if_pos h1]; exact ⟨_, rfl⟩
    · rw [if_neg h1]
      by_cases hc2 : (a + 3) % 2 = 0
      · rw [if_neg (by omega)]
        have s1 := shr1 big hc2
        have s2 := shr2 big (x := 2 * a + b + 2) (by omega)
        exact loop1_ends big (A := 4 * a) (B := 4 * b) n 0 1 _ _ 2 (by norm_num) (by rw [pow_zero]; linear_combination -4 * s1)
          (by rw [pow_zero]; linear_combination -4 * s2) h
      · rw [if_pos hc2]; exact ⟨_, rfl⟩

/-- **C87.**  `case1` does not return for `x³ - 12x + 16 = (x-2)²(x+4)`. -/
theorem C87_case1_loops (big : Bool) (fuel : ℕ) : case1 big fuel (-3) 4 = none := by
  have : ∀ n a, loop1 big n a 1 0 0 = none := by
    intro n
    induction n with
    | zero => exact fun a => rfl
    | succ n ih =>
      intro a
      have h0 : shr big 0 1 = 0 := by cases big <;> rfl
      have h1 : shr big 0 2 = 0 := by cases big <;> rfl
      simp only [loop1, low, h0, h1]
      exact ih _
  unfold case1
  have h0 : shr big 0 1 = 0 := by cases big <;> rfl
  have h1 : shr big 0 2 = 0 := by cases big <;> rfl
  simp [low, h0, h1, this]

/-! ### case 2 -/

/-- what one iteration of the loop of case 2 does -/
theorem step2 (a b c d : ℤ) :
    (c % 2 = 1 → d % 4 ≠ 3 → (HasSq (4 * a) (3 * (4 * b + 1)) (2 * c) d ↔ d % 4 = 0 ∨ d % 8 = 1)) ∧
    (c % 2 = 0 → d % 4 ≠ 0 → (HasSq (4 * a) (3 * (4 * b + 1)) (2 * c) d ↔ d % 4 = 1 ∨ d % 4 = 2 ∧ (d + 4 * (a + b) + 2 * c + 2) % 8 = 0)) ∧
    (∀ c' d', 2 * c' = c → 4 * d' = d → (HasSq (4 * a) (3 * (4 * b + 1)) (2 * c) d ↔ HasSq (4 * (2 * a)) (3 * (4 * b + 1)) (2 * c') d')) ∧
    (∀ e d', 2 * e = c + 1 → 4 * d' = d + 1 →
      (HasSq (4 * a) (3 * (4 * b + 1)) (2 * c) d ↔
        HasSq (4 * (2 * a)) (3 * (4 * (b + a) + 1)) (2 * (3 * a + 6 * b + (e + 1))) (a + 3 * b + e + d'))) := by
  refine ⟨fun hc hd => ?_, fun hc hd => ?_, fun c' d' hc hd => ?_, fun e d' hc hd => ?_⟩
  · by_cases h : d % 4 = 0 ∨ d % 8 = 1
    · refine ⟨fun _ => h, fun _ => ?_⟩
      have h5 : d % 8 = 1 ∨ (4 * a + 3 * (4 * b + 1) + 2 * c + d) % 8 = 1 ∨ (-(4 * a) + 3 * (4 * b + 1) - 2 * c + d) % 8 = 1 := by omega
      rcases h5 with h5 | h5 | h5
      · exact hasSq_of_one 0 (by simp only [evz]; omega)
      · exact hasSq_of_one 1 (by simp only [evz]; omega)
      · exact hasSq_of_one (-1) (by simp only [evz]; omega)
    · refine ⟨fun h' => absurd h' (not_hasSq fun r h0 h8 => ?_), fun h' => absurd h' h⟩
      interval_cases r <;> simp only [evz] <;> omega
  · by_cases h : d % 4 = 1 ∨ d % 4 = 2 ∧ (d + 4 * (a + b) + 2 * c + 2) % 8 = 0
    · refine ⟨fun _ => h, fun _ => ?_⟩
      have h5 : d % 8 = 1 ∨ (32 * a + 4 * (3 * (4 * b + 1)) + 4 * c + d) % 8 = 1 ∨ (4 * a + 3 * (4 * b + 1) + 2 * c + d) % 8 = 1 := by omega
      rcases h5 with h5 | h5 | h5
      · exact hasSq_of_one 0 (by simp only [evz]; omega)
      · exact hasSq_of_one 2 (by simp only [evz]; omega)
      · exact hasSq_of_one 1 (by simp only [evz]; omega)
    · refine ⟨fun h' => absurd h' (not_hasSq fun r h0 h8 => ?_), fun h' => absurd h' h⟩
      interval_cases r <;> simp only [evz] <;> omega
  · refine hasSq_even (fun r h0 h8 hr => ?_) fun x => ?_
    · interval_cases r <;> simp only [evz] <;> omega
    · rw [← hc, ← hd]
      unfold ev
      push_cast
      ring
  · have hd' : d = 4 * d' - 1 := by omega
    have hc' : c = 2 * e - 1 := by omega
    refine hasSq_odd (fun r h0 h8 hr => ?_) fun x => ?_
    · interval_cases r <;> simp only [evz] <;> omega
    · rw [hc', hd']
      unfold ev
      push_cast
      ring

theorem loop2_spec (big : Bool) : ∀ (n : ℕ) (a b c d : ℤ) (r : Bool), loop2 big n a b c d = some r →
    (r = true ↔ HasSq (4 * a) (3 * (4 * b + 1)) (2 * c) d) := by
  intro n
  induction n with
  | zero => intro a b c d r h; simp [loop2] at h
  | succ n ih =>
    intro a b c d r h
    obtain ⟨s1, s2, s3, s4⟩ := step2 a b c d
    unfold loop2 at h
    simp only [low] at h
    have e84 : d % 8 % 4 = d % 4 := by omega
    simp only [e84] at h
    by_cases hc : c % 2 = 0
    · rw [if_neg (by omega)] at h
      by_cases h1 : d % 4 = 1
      · rw [if_pos h1] at h
        rw [s2 hc (by omega), ← Option.some.inj h]
        simp [h1]
      · rw [if_neg h1] at h
        by_cases h3 : d % 4 = 3
        · rw [if_pos h3] at h
          rw [s2 hc (by omega), ← Option.some.inj h]
          simp [h3]
        · rw [if_neg h3] at h
          by_cases h2 : d % 4 = 2
          · rw [if_pos h2] at h
            rw [s2 hc (by omega), ← Option.some.inj h]
            cases big
            · simp only [Bool.false_eq_true, if_false, beq_iff_eq]
              omega
            · simp only [if_true, beq_iff_eq]
              omega
          · rw [if_neg h2] at h
            rw [s3 _ _ (shr1 big hc) (shr2 big (by omega))]
            exact ih _ _ _ _ r h
    · rw [if_pos (by omega)] at h
      by_cases h0 : d % 4 = 0
      · rw [if_pos h0] at h
        rw [s1 (by omega) (by omega), ← Option.some.inj h]
        simp [h0]
      · rw [if_neg h0] at h
        by_cases h2 : d % 4 = 2
        · rw [if_pos h2] at h
          rw [s1 (by omega) (by omega), ← Option.some.inj h]
          simp only [Bool.false_eq_true, false_iff]
          omega
        · rw [if_neg h2] at h
          by_cases h1 : d % 4 = 1
          · rw [if_pos h1] at h
            rw [s1 (by omega) (by omega), ← Option.some.inj h]
            simp only [beq_iff_eq]
            omega
          · rw [if_neg h1] at h
            have q1 := quo_exact big (x := c + 1) (n := 2) (by norm_num) (by omega)
            have q2 := quo_exact big (x := d + 1) (n := 4) (by norm_num) (by omega)
            have q3 := quo_exact big (x := c + 3) (n := 2) (by norm_num) (by omega)
            rw [s4 _ _ q1 q2]
            rw [show quo big (c + 3) 2 = quo big (c + 1) 2 + 1 by omega] at h
            exact ih _ _ _ _ r h

theorem loop2_ends (big : Bool) {A B : ℤ} : ∀ (n k : ℕ) (b c d : ℤ), 3 * (4 * b + 1) ^ 2 + A = 8 * 2 ^ k * c →
    (4 * b + 1) ^ 3 + A * (4 * b + 1) + B = 16 * 4 ^ k * d → ¬(2 : ℤ) ^ (n + k) ∣ disc A B → ∃ r, loop2 big n (2 ^ k) b c d = some r := by
  intro n
  induction n with
  | zero =>
    intro k b c d h2 h3 h4
    exfalso
    apply h4
    rw [Nat.zero_add]
    refine disc_dvd (X := 4 * b + 1) ⟨16 * 2 ^ k * d, ?_⟩ ⟨8 * c, ?_⟩
    · rw [h3, show (4 : ℤ) ^ k = 2 ^ k * 2 ^ k by rw [← mul_pow]; norm_num]; ring
    · rw [h2]; ring
  | succ n ih =>
    intro k b c d h2 h3 h4
    unfold loop2
    simp only [low]
    have e84 : d % 8 % 4 = d % 4 := by omega
    simp only [e84]
    have h4' : ¬(2 : ℤ) ^ (n + (k + 1)) ∣ disc A B := by rwa [show n + (k + 1) = n + 1 + k by omega]
    have e2 : 2 * (2 : ℤ) ^ k = 2 ^ (k + 1) := by rw [pow_succ]; ring
    by_cases hc : c % 2 = 0
    · rw [if_neg (by omega)]
      split_ifs with g1 g2 g3
      · exact ⟨_, rfl⟩
      · exact ⟨_, rfl⟩
      · exact ⟨_, rfl⟩
      · exact ⟨_, rfl⟩
      · have hd4 : d % 4 = 0 := by omega
        rw [e2]
        refine ih (k + 1) b _ _ ?_ ?_ h4'
        · rw [h2, pow_succ]
          have := shr1 big hc
          linear_combination -(8 * 2 ^ k) * this
        · rw [h3, pow_succ]
          have := shr2 big hd4
          linear_combination -(16 * 4 ^ k) * this
    · rw [if_pos (by omega)]
      split_ifs with g1 g2 g3
      · exact ⟨_, rfl⟩
      · exact ⟨_, rfl⟩
      · exact ⟨_, rfl⟩
      · rw [e2]
        have q1 := quo_exact big (x := c + 1) (n := 2) (by norm_num) (by omega)
        have q2 := quo_exact big (x := d + 1) (n := 4) (by norm_num) (by omega)
        have q3 := quo_exact big (x := c + 3) (n := 2) (by norm_num) (by omega)
        rw [show quo big (c + 3) 2 = quo big (c + 1) 2 + 1 by omega]
        have e4 : (4 : ℤ) ^ k = 2 ^ k * 2 ^ k := by rw [← mul_pow]; norm_num
        refine ih (k + 1) _ _ _ ?_ ?_ h4'
        · rw [pow_succ]
          linear_combination h2 - 8 * 2 ^ k * q1
        · rw [pow_succ 4 k, e4]
          rw [e4] at h3
          linear_combination h3 + 4 * 2 ^ k * h2 - 32 * (2 ^ k) ^ 2 * q1 - 16 * (2 ^ k) ^ 2 * q2

theorem hasSq43 {c d : ℤ} (hc : c % 2 = 1) : HasSq 4 3 c d := by
  by_cases he : d % 2 = 0
  · exact hasSq_root (k := 0) (by simp only [evz]; omega) (by omega)
  · have h5 : d % 8 = 1 ∨ (44 + 2 * c + d) % 8 = 1 ∨ (4 * c + d) % 8 = 1 ∨ (-20 - 2 * c + d) % 8 = 1 := by
      have e1 : c % 4 = 1 ∨ c % 4 = 3 := by omega
      have e2 : d % 8 = 1 ∨ d % 8 = 3 ∨ d % 8 = 5 ∨ d % 8 = 7 := by omega
      rcases e2 with e2 | e2 | e2 | e2
      · exact Or.inl e2
      · rcases e1 with e1 | e1
        · exact Or.inr (Or.inl (by omega))
        · exact Or.inr (Or.inr (Or.inr (by omega)))
      · exact Or.inr (Or.inr (Or.inl (by omega)))
      · rcases e1 with e1 | e1
        · exact Or.inr (Or.inr (Or.inr (by omega)))
        · exact Or.inr (Or.inl (by omega))
    rcases h5 with h5 | h5 | h5 | h5
    · exact hasSq_of_one 0 (by simp only [evz]; omega)
    · exact hasSq_of_one 2 (by simp only [evz]; omega)
    · exact hasSq_of_one 4 (by simp only [evz]; omega)
    · exact hasSq_of_one (-2) (by simp only [evz]; omega)

theorem spec2_iff (a b : ℤ) : Spec2 a b ↔ HasSq 16 12 (4 * (a + 1)) (a + b + 1) := by
  have key : ∀ y : ℤ_[2], (4 * y + 1) ^ 3 + (4 * (a : ℤ_[2]) + 1) * (4 * y + 1) + (4 * (b : ℤ_[2]) + 2) =
      4 * ev 16 12 (4 * (a + 1)) (a + b + 1) y := by
    intro y
    unfold ev
    push_cast
    ring
  constructor
  · rintro ⟨x, ⟨y, rfl⟩, hx⟩
    rw [key, four_mul] at hx
    exact ⟨y, hx⟩
  · rintro ⟨y, hy⟩
    exact ⟨4 * y + 1, ⟨y, rfl⟩, by rw [key, four_mul]; exact hy⟩

/-- **C87.**  Whenever `case2(a,b)` returns, it returns 1 if and only if there is a 2-adic integer `x = 1 (mod 4)` for which
`x³ + (4a+1) x + (4b+2)` is a square. -/
theorem C87_case2 (big : Bool) (fuel : ℕ) (a b : ℤ) (r : Bool) (h : case2 big fuel a b = some r) : r = true ↔ Spec2 a b := by
  rw [spec2_iff]
  unfold case2 at h
  simp only [low] at h
  generalize hc : a + 1 = c at h ⊢
  generalize hd : a + b + 1 = d at h ⊢
  have e84 : d % 8 % 4 = d % 4 := by omega
  simp only [e84] at h
  by_cases h23 : d % 4 = 2 ∨ d % 4 = 3
  · rw [if_pos h23] at h
    rw [← Option.some.inj h]
    simp only [Bool.false_eq_true, false_iff]
    refine not_hasSq fun r h0 h8 => ?_
    interval_cases r <;> simp only [evz] <;> omega
  · rw [if_neg h23] at h
    by_cases h1 : d % 4 = 1
    · rw [if_pos h1] at h
      rw [← Option.some.inj h]
      by_cases hv : c % 2 = 1 ∧ d % 8 ≠ 1
      · have : ¬HasSq 16 12 (4 * c) d := by
          refine not_hasSq fun r h0 h8 => ?_
          interval_cases r <;> simp only [evz] <;> omega
        simp only [this, iff_false, Bool.or_eq_true, beq_iff_eq]
        omega
      · have : HasSq 16 12 (4 * c) d := by
          by_cases h8 : d % 8 = 1
          · exact hasSq_of_one 0 (by simp only [evz]; omega)
          · exact hasSq_of_one 1 (by simp only [evz]; omega)
        simp only [this, iff_true, Bool.or_eq_true, beq_iff_eq]
        omega
    · rw [if_neg h1] at h
      by_cases hc2 : c % 2 = 0
      · rw [if_neg (by omega)] at h
        have hs := loop2_spec big fuel 1 0 _ _ r h
        rw [hs]
        have s1 := shr1 big hc2
        have s2 := shr2 big (x := d) (by omega)
        have key : ∀ x : ℤ_[2], ev 16 12 (4 * c) d x = 4 * ev (4 * 1) (3 * (4 * 0 + 1)) (2 * shr big c 1) (shr big d 2) x := by
          intro x
          conv_lhs => rw [← s1, ← s2]
          unfold ev
          push_cast
          ring
        unfold HasSq
        simp only [key, four_mul]
      · rw [if_pos (by omega)] at h
        rw [← Option.some.inj h]
        simp only [true_iff]
        obtain ⟨d', hd'⟩ : ∃ d', d = 4 * d' := ⟨d / 4, by omega⟩
        have := hasSq43 (c := c) (d := d') (by omega)
        obtain ⟨x, hx⟩ := this
        refine ⟨x, ?_⟩
        rw [show ev 16 12 (4 * c) d x = 4 * ev 4 3 c d' x by rw [hd']; unfold ev; push_cast; ring, four_mul]
        exact hx

/-- **C87.**  `case2(a,b)` returns if the discriminant of `x³ + (4a+1) x + (4b+2)` is not 0, after a number of iterations at most its
exponent of 2. -/
theorem C87_case2_terminates (big : Bool) (a b : ℤ) (n : ℕ) (h : ¬(2 : ℤ) ^ n ∣ disc (4 * a + 1) (4 * b + 2)) :
    ∃ r, case2 big n a b = some r := by
  unfold case2
  simp only [low]
  have e84 : (a + b + 1) % 8 % 4 = (a + b + 1) % 4 := by omega
  simp only [e84]
  split_ifs with g1 g2 g3
  · exact ⟨_, rfl⟩
  · exact ⟨_, rfl⟩
  · exact ⟨_, rfl⟩
  · have s1 := shr1 big (x := a + 1) (by omega)
    have s2 := shr2 big (x := a + b + 1) (by omega)
    exact loop2_ends big (A := 4 * a + 1) (B := 4 * b + 2) n 0 0 _ _ (by rw [pow_zero]; linear_combination -4 * s1)
      (by rw [pow_zero]; linear_combination -4 * s2) h

/-- **C87.**  `case2` does not return for `x³ - 3x + 2 = (x-1)²(x+2)`. -/
theorem C87_case2_loops (big : Bool) (fuel : ℕ) : case2 big fuel (-1) 0 = none := by
  have h0 : shr big 0 1 = 0 := by cases big <;> rfl
  have h1 : shr big 0 2 = 0 := by cases big <;> rfl
  have : ∀ n a, loop2 big n a 0 0 0 = none := by
    intro n
    induction n with
    | zero => exact fun a => rfl
    | succ n ih =>
      intro a
      simp only [loop2, low, h0, h1]
      exact ih _
  unfold case2
  simp [low, h0, h1, this]

/-- cases where the loop is run several times: `x³ + 4x + 16`, `x³ + 36x + 16`, `x³ + 5x + 42`, `x³ + 37x + 10` -/
example : case1 false 1 1 4 = none ∧ case1 false 20 1 4 = some true ∧ case1 true 20 1 4 = some true ∧
    case1 false 20 9 4 = some false ∧ case2 false 20 1 10 = some true ∧ case2 true 20 1 10 = some true ∧
    case2 false 20 9 2 = some false ∧ case1 true 20 (-7) (-4) = case1 false 20 (-7) (-4) := by decide +kernel

/-- the discriminant of `x³ + 4x + 16` -/
example : disc (4 * 1) (4 * 4) = 2 ^ 10 * 7 ∧ ¬(2 : ℤ) ^ 11 ∣ disc (4 * 1) (4 * 4) := by decide +kernel

/-! ### `try1` -/

/-- the polynomial of `try1` at a 2-adic integer -/
noncomputable def evp (p : ℤ × ℤ × ℤ × ℤ) (x : ℤ_[2]) : ℤ_[2] := p.1 + p.2.1 * x + p.2.2.1 * x ^ 2 + p.2.2.2 * x ^ 3

/-- there is a 2-adic integer where the polynomial is a square -/
def HasSqP (p : ℤ × ℤ × ℤ × ℤ) : Prop := ∃ x : ℤ_[2], IsSq (evp p x)

theorem val2_dvd {a : ℤ} {n : ℕ} (h : n ≤ val2 a) : (2 : ℤ) ^ n ∣ a := by
  unfold val2 at h
  split_ifs at h with h0
  · rw [h0]; exact dvd_zero _
  · exact (pow_dvd_pow 2 h).trans (Marith.val_spec 2 a (by norm_num) h0).1

theorem hasSqP_split (p : ℤ × ℤ × ℤ × ℤ) : HasSqP p ↔ HasSqP (sub0 p) ∨ HasSqP (sub1 p) := by
  have k0 : ∀ x, evp p (2 * x) = evp (sub0 p) x := by
    intro x; simp only [evp, sub0]; push_cast; ring
  have k1 : ∀ x, evp p (2 * x + 1) = evp (sub1 p) x := by
    intro x; simp only [evp, sub1]; push_cast; ring
  constructor
  · rintro ⟨x, hx⟩
    obtain ⟨r, y, -, -, rfl⟩ := mod_eight x
    rcases Int.even_or_odd' r with ⟨k, hk | hk⟩
    · left
      refine ⟨k + 4 * y, ?_⟩
      rw [← k0]
      convert hx using 2
      rw [hk]; push_cast; ring
    · right
      refine ⟨k + 4 * y, ?_⟩
      rw [← k1]
      convert hx using 2
      rw [hk]; push_cast; ring
  · rintro (⟨x, hx⟩ | ⟨x, hx⟩)
    · exact ⟨_, by rw [k0]; exact hx⟩
    · exact ⟨_, by rw [k1]; exact hx⟩

theorem unit_add {u : ℤ} (h : u % 2 = 1) (s : ℤ_[2]) : ‖(u : ℤ_[2]) + 2 * s‖ = 1 := by
  have h1 : ‖(2 * s : ℤ_[2])‖ < 1 := (norm_lt_one_iff _).mpr ⟨s, by push_cast; rfl⟩
  have h2 := odd_norm h
  rw [PadicInt.norm_add_eq_max_of_ne (by rw [h2]; exact h1.ne'), h2, max_eq_left h1.le]

/-- **C88 (partial).**  If `try1(poly)` returns 0 then the polynomial takes no square value at a 2-adic integer. -/
theorem C88_try1_zero_partial : ∀ (n : ℕ) (p : ℤ × ℤ × ℤ × ℤ), try1 n p = some false → ¬∃ x : ℤ_[2], ∃ z : ℤ_[2], z ^ 2 =
    p.1 + p.2.1 * x + p.2.2.1 * x ^ 2 + p.2.2.2 * x ^ 3 := by
  intro n
  induction n with
  | zero => intro p h; simp [try1] at h
  | succ n ih =>
    intro p h
    unfold try1 at h
    simp only [low] at h
    generalize hsq : (if val2 p.1 % 2 = 0 then (if p.1.tdiv (2 ^ val2 p.1) % 8 % 4 = 3 then 2 else 3) + val2 p.1 else val2 p.1 + 1) = sq at h
    by_cases g1 : p.1 = 0 ∨ val2 p.1 > 2 * val2 p.2.1
    · rw [if_pos g1] at h; simp at h
    rw [if_neg g1] at h
    by_cases g2 : val2 p.1 + val2 p.2.2.1 > 2 * val2 p.2.1 ∧ 2 * val2 p.1 + val2 p.2.2.2 > 3 * val2 p.2.1
    · rw [if_pos g2] at h; simp at h
    rw [if_neg g2] at h
    by_cases g3 : val2 p.1 % 2 = 0 ∧ p.1.tdiv (2 ^ val2 p.1) % 8 = 1
    · rw [if_pos g3] at h; simp at h
    rw [if_neg g3] at h
    by_cases g4 : val2 p.2.1 < sq ∨ val2 p.2.2.1 < sq ∨ val2 p.2.2.2 < sq
    · -- refined
      rw [if_pos g4] at h
      change ¬HasSqP p
      rw [hasSqP_split]
      rw [Option.bind_eq_some_iff] at h
      obtain ⟨r, h0, h1⟩ := h
      cases r
      · rw [if_neg (by simp)] at h1
        rintro (h | h)
        · exact ih _ h0 h
        · exact ih _ h1 h
      · simp at h1
    · -- a leaf
      clear h g2
      push Not at g1
      obtain ⟨hp0, -⟩ := g1
      have hx := Marith.val_spec 2 p.1 (by norm_num) hp0
      have hv : val2 p.1 = Marith.val 2 p.1 := if_neg hp0
      rw [← hv] at hx
      obtain ⟨⟨u, hu⟩, hn⟩ := hx
      have hud : u % 2 = 1 := by
        by_contra hc
        apply hn
        obtain ⟨k, hk⟩ : ∃ k, u = 2 * k := ⟨u / 2, by omega⟩
        exact ⟨k, by rw [hk] at hu; rw [pow_succ]; linear_combination hu⟩
      generalize val2 p.1 = v at *
      have hdiv : p.1.tdiv (2 ^ v) = u := by rw [hu, Int.mul_tdiv_cancel_left _ (pow_ne_zero _ (by norm_num))]
      rw [hdiv] at g3 hsq
      push Not at g4
      obtain ⟨⟨c1, e1⟩, ⟨c2, e2⟩, ⟨c3, e3⟩⟩ := And.intro (val2_dvd g4.1) (And.intro (val2_dvd g4.2.1) (val2_dvd g4.2.2))
      rintro ⟨x, hx⟩
      obtain ⟨w, hw⟩ : ∃ w, sq = v + w := by
        refine ⟨sq - v, ?_⟩
        split_ifs at hsq <;> omega
      have key : ((p.1 : ℤ_[2]) + p.2.1 * x + p.2.2.1 * x ^ 2 + p.2.2.2 * x ^ 3) =
          ((2 : ℕ) : ℤ_[2]) ^ v * (u + 2 ^ w * (c1 * x + c2 * x ^ 2 + c3 * x ^ 3)) := by
        rw [e1, e2, e3, hu, hw]
        push_cast
        ring
      generalize (c1 * x + c2 * x ^ 2 + c3 * x ^ 3 : ℤ_[2]) = s at key
      have hw1 : 1 ≤ w := by split_ifs at hsq <;> omega
      obtain ⟨w', rfl⟩ : ∃ w', w = w' + 1 := ⟨w - 1, by omega⟩
      have hun : ‖((u : ℤ_[2]) + 2 ^ (w' + 1) * s)‖ = 1 := by
        rw [show (u : ℤ_[2]) + 2 ^ (w' + 1) * s = u + 2 * (2 ^ w' * s) by ring]
        exact unit_add hud _
      have hsqr : IsSq (((2 : ℕ) : ℤ_[2]) ^ v * ((u : ℤ_[2]) + 2 ^ (w' + 1) * s)) := by
        obtain ⟨z, hz⟩ := hx
        exact ⟨z, hz.trans key⟩
      rw [isSq_pow_mul v hun] at hsqr
      obtain ⟨hev, hsqu⟩ := hsqr
      rw [if_pos hev] at hsq
      have h8 := (isSq_two_iff hun).mp hsqu
      obtain ⟨t, ht⟩ := h8
      by_cases h3 : u % 8 % 4 = 3
      · rw [if_pos h3] at hsq
        have : w' = 1 := by omega
        subst this
        have := dvd_of_padic (p := 2) (n := u - 1) (k := 2) (s := 2 * t - s) (by push_cast; linear_combination ht)
        norm_num at this
        omega
      · rw [if_neg h3] at hsq
        have : w' = 2 := by omega
        subst this
        have := dvd_of_padic (p := 2) (n := u - 1) (k := 3) (s := t - s) (by push_cast; linear_combination ht)
        norm_num at this
        omega

/-- `8x³ + 8x² + 4x + 3`: no square value; a refinement is needed -/
example : try1 9 (3, 4, 8, 8) = some false ∧ try1 1 (3, 2, 4, 4) = none ∧ try1 9 (3, 2, 4, 4) = some true := by decide +kernel

/-- **C88 (the claim fails).**  `try1` returns 1 for `65536x³ + 2048x² + 32x + 3`, which takes no square value at a 2-adic integer:
the test with the Newton polygon does not ask that the root is a 2-adic integer. -/
theorem C88_try1_one_wrong : try1 1 (3, 32, 2048, 65536) = some true ∧
    ¬∃ x z : ℤ_[2], z ^ 2 = 3 + 32 * x + 2048 * x ^ 2 + 65536 * x ^ 3 := by
  refine ⟨by decide +kernel, ?_⟩
  rintro ⟨x, z, hz⟩
  have h : IsSq (((3 : ℤ) : ℤ_[2]) + 8 * (4 * x + 256 * x ^ 2 + 8192 * x ^ 3)) := ⟨z, by rw [hz]; push_cast; ring⟩
  have := sq_mod h
  omega

end Eclib.Twoadic
