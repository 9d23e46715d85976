import Verif.Tate.AlgProps

/-!
# C64: the exponent of the conductor

For the exponent `f = v_p(Δ) - m + 1` of Ogg's formula, as recorded by the code: `f = 0` for good reduction,
`f = 1` for multiplicative reduction, `f ≥ 2` otherwise, with `f = 2` for `p ≥ 5`, `f ≤ 5` for `p = 3` and
`f ≤ 8` for `p = 2`.
-/

namespace Eclib.Tate

open WeierstrassCurve
open Eclib.Curve

/-- `Δ = p^n u + p^(n+1) v` -/
theorem exact_of {p : ℤ} (hp : p ≠ 0) {n : ℕ} {D u v : ℤ} (h : D = p ^ n * u + p ^ (n + 1) * v) (hu : ¬ p ∣ u) :
    ¬ p ^ (n + 1) ∣ D := by
  intro hd
  rw [h, dvd_add_left ⟨v, rfl⟩, pow_mul_dvd hp] at hd
  exact hu hd

theorem disc4 (W : WeierstrassCurve ℤ) : 4 * W.Δ = -W.b₂ ^ 3 * W.b₆ + W.b₂ ^ 2 * W.b₄ ^ 2 - 32 * W.b₄ ^ 3 -
    108 * W.b₆ ^ 2 + 36 * W.b₂ * W.b₄ * W.b₆ := by
  have := W.b_relation
  unfold Δ
  linear_combination -W.b₂ ^ 2 * this

/-- the additive types -/
def Kodaira.Additive : Kodaira → Prop
  | .I _ => False
  | _ => True

variable {q : ℕ} {W : WeierstrassCurve ℤ}

theorem IV_b4 (hq : q.Prime) (hb2 : (q : ℤ) ∣ W.b₂) (hb6 : (q : ℤ) ^ 2 ∣ W.b₆)
    (hb8 : (q : ℤ) ^ 3 ∣ W.b₈) : (q : ℤ) ^ 2 ∣ W.b₄ := by
  have hp : Prime (q : ℤ) := Nat.prime_iff_prime_int.1 hq
  have : (q : ℤ) ^ 3 ∣ W.b₄ ^ 2 := by
    have e : W.b₄ ^ 2 = W.b₂ * W.b₆ - 4 * W.b₈ := by linear_combination W.b_relation
    rw [e]
    refine dvd_sub ?_ (hb8.mul_left _)
    rw [show (q : ℤ) ^ 3 = q * q ^ 2 by ring]
    exact mul_dvd_mul hb2 hb6
  exact dvd_of_sq hp 1 (by norm_num) this

/-- the divisibilities of the `b`-invariants in the normal forms -/
structure BLev (q : ℕ) (W : WeierstrassCurve ℤ) (i j k l : ℕ) : Prop where
  b2 : (q : ℤ) ^ i ∣ W.b₂
  b4 : (q : ℤ) ^ j ∣ W.b₄
  b6 : (q : ℤ) ^ k ∣ W.b₆
  b8 : (q : ℤ) ^ l ∣ W.b₈

theorem BLev.disc {i j k l n : ℕ} (h : BLev q W i j k l) (h1 : n ≤ 2 * i + l) (h2 : n ≤ 3 * j) (h3 : n ≤ 2 * k)
    (h4 : n ≤ i + j + k) : (q : ℤ) ^ n ∣ W.Δ := by
  have : Val q W.b₂ i := ⟨h.b2⟩
  have : Val q W.b₄ j := ⟨h.b4⟩
  have : Val q W.b₆ k := ⟨h.b6⟩
  have : Val q W.b₈ l := ⟨h.b8⟩
  unfold Δ
  pv

/-- the divisibilities of the `b`-invariants in the normal form of the given type -/
def BNF (q : ℕ) (W : WeierstrassCurve ℤ) : Kodaira → Prop
  | .I _ => True
  | .II => BLev q W 1 1 1 1
  | .III => BLev q W 1 1 2 2
  | .IV => BLev q W 1 2 2 3
  | .Istar 0 => BLev q W 1 2 3 4
  | .Istar (m + 1) => BLev q W 1 ((m + 6) / 2) (m + 4) (m + 5)
  | .IVstar => BLev q W 2 3 4 6
  | .IIIstar => BLev q W 2 3 5 6
  | .IIstar => BLev q W 2 4 5 7

theorem NF.blev (hq : q.Prime) {k : Kodaira} {c : ℕ} (h : NF q W k c) : BNF q W k := by
  rcases k with (_ | n) | (_ | m) | _ | _ | _ | _ | _ | _
  · trivial
  · trivial
  · obtain ⟨h1, h2, h3, h4, h6, -, -⟩ := h
    have := Val.of1 h1
    have := Val.of1 h2
    have : Val q W.a₃ 2 := ⟨h3⟩
    have : Val q W.a₄ 2 := ⟨h4⟩
    have : Val q W.a₆ 3 := ⟨h6⟩
    exact ⟨by unfold b₂; pv, by unfold b₄; pv, by unfold b₆; pv, by unfold b₈; pv⟩
  · obtain ⟨h, -⟩ := h
    have := Val.of1 h.a1
    have := Val.of1 h.a2
    have : Val q W.a₃ ((m + 1 + 4) / 2) := ⟨h.a3⟩
    have : Val q W.a₄ ((m + 1 + 5) / 2) := ⟨h.a4⟩
    have : Val q W.a₆ (m + 1 + 3) := ⟨h.a6⟩
    exact ⟨by unfold b₂; pv, by unfold b₄; pv, by unfold b₆; pv, by unfold b₈; pv⟩
  · obtain ⟨h3, h4, h6, h2, -⟩ := h
    have := Val.of1 h3
    have := Val.of1 h4
    have := Val.of1 h6
    exact ⟨by simpa using h2, by unfold b₄; pv, by unfold b₆; pv, by unfold b₈; pv⟩
  · obtain ⟨h3, h4, h2, h6, -⟩ := h
    have := Val.of1 h3
    have := Val.of1 h4
    have : Val q W.a₆ 2 := ⟨h6⟩
    have := Val.of1 h2
    have e : W.b₈ = W.b₂ * W.a₆ - W.a₁ * W.a₃ * W.a₄ + W.a₂ * W.a₃ ^ 2 - W.a₄ ^ 2 := by unfold b₂ b₈; ring
    exact ⟨by simpa using h2, by unfold b₄; pv, by unfold b₆; pv, by rw [e]; pv⟩
  · obtain ⟨h3, h4, h2, h6, h8, -⟩ := h
    have := Val.of1 h3
    have := Val.of1 h4
    have : Val q W.a₆ 2 := ⟨h6⟩
    have e6 : (q : ℤ) ^ 2 ∣ W.b₆ := by unfold b₆; pv
    exact ⟨by simpa using h2, IV_b4 hq h2 e6 h8, e6, h8⟩
  · obtain ⟨h1, h2, h3, h4, h6, -⟩ := h
    have := Val.of1 h1
    have : Val q W.a₂ 2 := ⟨h2⟩
    have : Val q W.a₃ 2 := ⟨h3⟩
    have : Val q W.a₄ 3 := ⟨h4⟩
    have : Val q W.a₆ 4 := ⟨h6⟩
    exact ⟨by unfold b₂; pv, by unfold b₄; pv, by unfold b₆; pv, by unfold b₈; pv⟩
  · obtain ⟨h1, h2, h3, h4, h6, -⟩ := h
    have := Val.of1 h1
    have : Val q W.a₂ 2 := ⟨h2⟩
    have : Val q W.a₃ 3 := ⟨h3⟩
    have : Val q W.a₄ 3 := ⟨h4⟩
    have : Val q W.a₆ 5 := ⟨h6⟩
    exact ⟨by unfold b₂; pv, by unfold b₄; pv, by unfold b₆; pv, by unfold b₈; pv⟩
  · obtain ⟨h1, h2, h3, h4, h6, -⟩ := h
    have := Val.of1 h1
    have : Val q W.a₂ 2 := ⟨h2⟩
    have : Val q W.a₃ 3 := ⟨h3⟩
    have : Val q W.a₄ 4 := ⟨h4⟩
    have : Val q W.a₆ 5 := ⟨h6⟩
    exact ⟨by unfold b₂; pv, by unfold b₄; pv, by unfold b₆; pv, by unfold b₈; pv⟩

/-- additive reduction: the exponent of the conductor is at least 2 -/
theorem NF.lower (hq : q.Prime) {k : Kodaira} {c : ℕ} (h : NF q W k c) (hk : k.Additive) :
    (q : ℤ) ^ (k.components + 1) ∣ W.Δ := by
  have hb := h.blev hq
  rcases k with (_ | n) | (_ | m) | _ | _ | _ | _ | _ | _
  · exact hk.elim
  · exact hk.elim
  · exact BLev.disc (n := 6) hb (by norm_num) (by norm_num) (by norm_num) (by norm_num)
  · exact h.1.disc (by omega)
  · exact BLev.disc (n := 2) hb (by norm_num) (by norm_num) (by norm_num) (by norm_num)
  · exact BLev.disc (n := 3) hb (by norm_num) (by norm_num) (by norm_num) (by norm_num)
  · exact BLev.disc (n := 4) hb (by norm_num) (by norm_num) (by norm_num) (by norm_num)
  · exact BLev.disc (n := 8) hb (by norm_num) (by norm_num) (by norm_num) (by norm_num)
  · exact BLev.disc (n := 9) hb (by norm_num) (by norm_num) (by norm_num) (by norm_num)
  · exact BLev.disc (n := 10) hb (by norm_num) (by norm_num) (by norm_num) (by norm_num)

/-! ### odd primes -/

/-- `b6` dominates -/
theorem b6_dominates (hq : q.Prime) (h3 : q ≠ 3) {i j k l : ℕ} (h : BLev q W i j k l)
    (h6 : ¬ (q : ℤ) ^ (k + 1) ∣ W.b₆) (h1 : 2 * k + 1 ≤ 2 * i + l) (h2 : 2 * k + 1 ≤ 3 * j)
    (h4 : 2 * k + 1 ≤ i + j + k) : ¬ (q : ℤ) ^ (2 * k + 1) ∣ W.Δ := by
  have hp : Prime (q : ℤ) := Nat.prime_iff_prime_int.1 hq
  have : Val q W.b₂ i := ⟨h.b2⟩
  have : Val q W.b₄ j := ⟨h.b4⟩
  have : Val q W.b₆ k := ⟨h.b6⟩
  have : Val q W.b₈ l := ⟨h.b8⟩
  intro hd
  have e1 : (q : ℤ) ^ (2 * k + 1) ∣ -W.b₂ ^ 2 * W.b₈ - 8 * W.b₄ ^ 3 + 9 * W.b₂ * W.b₄ * W.b₆ := by pv
  have e2 : (q : ℤ) ^ (2 * k + 1) ∣ 27 * W.b₆ ^ 2 := by
    have e : 27 * W.b₆ ^ 2 = (-W.b₂ ^ 2 * W.b₈ - 8 * W.b₄ ^ 3 + 9 * W.b₂ * W.b₄ * W.b₆) - W.Δ := by unfold Δ; ring
    rw [e]
    exact dvd_sub e1 hd
  obtain ⟨z, hz⟩ := h.b6
  rw [hz, show (27 : ℤ) * (q ^ k * z) ^ 2 = q ^ (2 * k) * (27 * z ^ 2) by ring, pow_mul_dvd hp.ne_zero] at e2
  apply h6
  rw [hz, pow_mul_dvd hp.ne_zero]
  rcases hp.dvd_or_dvd e2 with e | e
  · have : (q : ℤ) ∣ 3 := hp.dvd_of_dvd_pow (n := 3) (by norm_num; exact e)
    exact absurd (Nat.prime_dvd_prime_iff_eq hq Nat.prime_three |>.1 (by exact_mod_cast this)) h3
  · exact hp.dvd_of_dvd_pow e

/-- `b4` dominates -/
theorem b4_dominates (hq : q.Prime) (h2 : q ≠ 2) {i j k l : ℕ} (h : BLev q W i j k l)
    (h5 : ¬ (q : ℤ) ^ (j + 1) ∣ W.b₄) (h1 : 3 * j + 1 ≤ 2 * i + l) (h3 : 3 * j + 1 ≤ 2 * k)
    (h4 : 3 * j + 1 ≤ i + j + k) : ¬ (q : ℤ) ^ (3 * j + 1) ∣ W.Δ := by
  have hp : Prime (q : ℤ) := Nat.prime_iff_prime_int.1 hq
  have : Val q W.b₂ i := ⟨h.b2⟩
  have : Val q W.b₄ j := ⟨h.b4⟩
  have : Val q W.b₆ k := ⟨h.b6⟩
  have : Val q W.b₈ l := ⟨h.b8⟩
  intro hd
  have e1 : (q : ℤ) ^ (3 * j + 1) ∣ -W.b₂ ^ 2 * W.b₈ - 27 * W.b₆ ^ 2 + 9 * W.b₂ * W.b₄ * W.b₆ := by pv
  have e2 : (q : ℤ) ^ (3 * j + 1) ∣ 8 * W.b₄ ^ 3 := by
    have e : 8 * W.b₄ ^ 3 = (-W.b₂ ^ 2 * W.b₈ - 27 * W.b₆ ^ 2 + 9 * W.b₂ * W.b₄ * W.b₆) - W.Δ := by unfold Δ; ring
    rw [e]
    exact dvd_sub e1 hd
  obtain ⟨z, hz⟩ := h.b4
  rw [hz, show (8 : ℤ) * (q ^ j * z) ^ 3 = q ^ (3 * j) * (8 * z ^ 3) by ring, pow_mul_dvd hp.ne_zero] at e2
  apply h5
  rw [hz, pow_mul_dvd hp.ne_zero]
  rcases hp.dvd_or_dvd e2 with e | e
  · have : (q : ℤ) ∣ 2 := hp.dvd_of_dvd_pow (n := 3) (by norm_num; exact e)
    exact absurd (Nat.prime_dvd_prime_iff_eq hq Nat.prime_two |>.1 (by exact_mod_cast this)) h2
  · exact hp.dvd_of_dvd_pow e

/-- `b2` and `b8` dominate -/
theorem b8_dominates (hq : q.Prime) {j k l : ℕ} (h : BLev q W 1 j k l)
    (h5 : ¬ (q : ℤ) ^ 2 ∣ W.b₂) (h6 : ¬ (q : ℤ) ^ (l + 1) ∣ W.b₈) (h1 : l + 3 ≤ 3 * j) (h3 : l + 3 ≤ 2 * k)
    (h4 : l + 3 ≤ 1 + j + k) : ¬ (q : ℤ) ^ (l + 3) ∣ W.Δ := by
  have hp : Prime (q : ℤ) := Nat.prime_iff_prime_int.1 hq
  have : Val q W.b₂ 1 := ⟨h.b2⟩
  have : Val q W.b₄ j := ⟨h.b4⟩
  have : Val q W.b₆ k := ⟨h.b6⟩
  have : Val q W.b₈ l := ⟨h.b8⟩
  intro hd
  have e1 : (q : ℤ) ^ (l + 3) ∣ - 8 * W.b₄ ^ 3 - 27 * W.b₆ ^ 2 + 9 * W.b₂ * W.b₄ * W.b₆ := by pv
  have e2 : (q : ℤ) ^ (l + 3) ∣ W.b₂ ^ 2 * W.b₈ := by
    have e : W.b₂ ^ 2 * W.b₈ = (- 8 * W.b₄ ^ 3 - 27 * W.b₆ ^ 2 + 9 * W.b₂ * W.b₄ * W.b₆) - W.Δ := by unfold Δ; ring
    rw [e]
    exact dvd_sub e1 hd
  obtain ⟨z, hz⟩ := h.b8
  obtain ⟨x, hx⟩ := h.b2
  rw [hz, hx, show ((q : ℤ) ^ 1 * x) ^ 2 * (q ^ l * z) = q ^ (l + 2) * (x ^ 2 * z) by ring,
    show l + 3 = (l + 2) + 1 by ring, pow_mul_dvd hp.ne_zero] at e2
  rcases hp.dvd_or_dvd e2 with e | e
  · apply h5
    rw [hx, show 2 = 1 + 1 by rfl, pow_mul_dvd hp.ne_zero]
    exact hp.dvd_of_dvd_pow e
  · apply h6
    rw [hz, pow_mul_dvd hp.ne_zero]
    exact e

/-- the part of the discriminant in which `a1` or `a3` occurs -/
theorem disc_split (W : WeierstrassCurve ℤ) : W.Δ = 16 * cubDisc W + (
      -W.a₁ ^ 6 * W.a₆ - 12 * W.a₁ ^ 4 * W.a₂ * W.a₆ + W.a₁ ^ 5 * W.a₃ * W.a₄ - W.a₁ ^ 4 * W.a₂ * W.a₃ ^
      2 + W.a₁ ^ 4 * W.a₄ ^ 2 - 48 * W.a₁ ^ 2 * W.a₂ ^ 2 * W.a₆ + 8 * W.a₁ ^ 3 * W.a₂ * W.a₃ * W.a₄ - 8
      * W.a₁ ^ 2 * W.a₂ ^ 2 * W.a₃ ^ 2 + 8 * W.a₁ ^ 2 * W.a₂ * W.a₄ ^ 2 + 16 * W.a₁ * W.a₂ ^ 2 * W.a₃ *
      W.a₄ - 16 * W.a₂ ^ 3 * W.a₃ ^ 2 - 96 * W.a₁ * W.a₃ * W.a₄ ^ 2 - 30 * W.a₁ ^ 2 * W.a₃ ^ 2 * W.a₄ +
      W.a₁ ^ 3 * W.a₃ ^ 3 - 27 * W.a₃ ^ 4 - 216 * W.a₃ ^ 2 * W.a₆ + 72 * W.a₁ ^ 2 * W.a₄ * W.a₆ + 36 *
      W.a₁ ^ 3 * W.a₃ * W.a₆ + 72 * W.a₂ * W.a₃ ^ 2 * W.a₄ + 36 * W.a₁ * W.a₂ * W.a₃ ^ 3 + 144 * W.a₁ *
      W.a₂ * W.a₃ * W.a₆) := by
  unfold Δ b₂ b₄ b₆ b₈ cubDisc; ring

/-- odd primes do not divide 2, 4, 16 -/
theorem odd_pow_cancel (hq : q.Prime) (h2 : q ≠ 2) {n k : ℕ} {x : ℤ} (h : (q : ℤ) ^ n ∣ 2 ^ k * x) :
    (q : ℤ) ^ n ∣ x := by
  have hc : IsCoprime ((q : ℤ) ^ n) (2 ^ k) := by
    apply IsCoprime.pow
    have := (Nat.coprime_primes hq Nat.prime_two).2 h2
    exact_mod_cast (Nat.isCoprime_iff_coprime.2 this)
  exact hc.dvd_of_dvd_mul_left h

/-- odd primes other than 3, and 3 for the types `III`, `I*m`, `III*`: the exponent is 2 -/
theorem NF.upper_odd (hq : q.Prime) (h2 : q ≠ 2) {k : Kodaira} {c : ℕ} (h : NF q W k c) (hk : k.Additive)
    (h3 : q ≠ 3 ∨ k = .III ∨ k = .IIIstar ∨ ∃ m, k = .Istar m) : ¬ (q : ℤ) ^ (k.components + 2) ∣ W.Δ := by
  have hp : Prime (q : ℤ) := Nat.prime_iff_prime_int.1 hq
  have hb := h.blev hq
  rcases k with (_ | n) | (_ | m) | _ | _ | _ | _ | _ | _
  · exact hk.elim
  · exact hk.elim
  · obtain ⟨h1, h2', h3, h4, h6, h7, -⟩ := h
    have := Val.of1 h1
    have := Val.of1 h2'
    have : Val q W.a₃ 2 := ⟨h3⟩
    have : Val q W.a₄ 2 := ⟨h4⟩
    have : Val q W.a₆ 3 := ⟨h6⟩
    rw [disc_split]
    intro hd
    change (q : ℤ) ^ 7 ∣ _ at hd
    refine h7 (odd_pow_cancel hq h2 (k := 4) ?_)
    refine (dvd_add_left ?_).1 hd
    set_option synthInstance.maxSize 1000 in
    set_option synthInstance.maxHeartbeats 200000 in
    pv
  · obtain ⟨hs, h7⟩ := h
    have := Val.of1 hs.a1
    have := Val.of1 hs.a2
    have i3 : Val q W.a₃ ((m + 1 + 4) / 2) := ⟨hs.a3⟩
    have i4 : Val q W.a₄ ((m + 1 + 5) / 2) := ⟨hs.a4⟩
    have i6 : Val q W.a₆ (m + 1 + 3) := ⟨hs.a6⟩
    have hb2 : ¬ (q : ℤ) ^ 2 ∣ W.b₂ := by
      unfold b₂
      rw [dvd_add_right (by pv)]
      exact fun hd => hs.a2' (odd_pow_cancel hq h2 (k := 2) (by norm_num; exact hd))
    have hb8 : ¬ (q : ℤ) ^ (m + 6) ∣ W.b₈ := by
      intro hd
      by_cases hm : (m + 1) % 2 = 1
      · rw [if_pos hm] at h7
        have e1 : (q : ℤ) ^ (m + 6) ∣ W.b₄ ^ 2 := by unfold b₄; pv
        have e2 : (q : ℤ) ^ (m + 6) ∣ W.b₂ * W.b₆ := by
          have e : W.b₂ * W.b₆ = 4 * W.b₈ + W.b₄ ^ 2 := by linear_combination -W.b_relation
          rw [e]
          exact dvd_add (hd.mul_left _) e1
        obtain ⟨x, hx⟩ := BLev.b2 hb
        rw [hx, show (q : ℤ) ^ 1 * x * W.b₆ = x * (q ^ 1 * W.b₆) by ring] at e2
        have hx1 : ¬ (q : ℤ) ∣ x := fun h => hb2 (by
          rw [hx, show 2 = 1 + 1 by rfl, pow_mul_dvd hp.ne_zero]; exact h)
        have e3 := (hp.coprime_iff_not_dvd.2 hx1).pow_left (m := m + 6) |>.dvd_of_dvd_mul_left e2
        rw [show m + 6 = 1 + (m + 5) by ring, pow_add] at e3
        have e4 := (mul_dvd_mul_iff_left (pow_ne_zero 1 hp.ne_zero)).1 e3
        exact h7.1 e4
      · rw [if_neg hm] at h7
        apply h7.1
        have e : W.a₄ ^ 2 - 4 * W.a₂ * W.a₆ = (W.a₁ ^ 2 * W.a₆ - W.a₁ * W.a₃ * W.a₄ + W.a₂ * W.a₃ ^ 2) - W.b₈ := by
          unfold b₈; ring
        rw [e]
        exact dvd_sub (by pv) hd
    exact b8_dominates hq hb hb2 hb8 (by omega) (by omega) (by omega)
  · obtain ⟨e3, e4, e6, e2, e6', -⟩ := h
    have := Val.of1 e3
    refine b6_dominates hq (by tauto) hb (fun hd => e6' ?_) (by norm_num) (by norm_num) (by norm_num)
    unfold b₆ at hd
    rw [dvd_add_right (by pv)] at hd
    exact odd_pow_cancel hq h2 (k := 2) (by norm_num; exact hd)
  · obtain ⟨e3, e4, e2, e6, e8, -⟩ := h
    refine b4_dominates hq h2 hb (fun hd => e8 ?_) (by norm_num) (by norm_num) (by norm_num)
    have := Val.of1 e2
    have : Val q W.b₄ 2 := ⟨hd⟩
    have : Val q W.b₆ 2 := ⟨BLev.b6 hb⟩
    refine odd_pow_cancel hq h2 (k := 2) ?_
    have e : 2 ^ 2 * W.b₈ = W.b₂ * W.b₆ - W.b₄ ^ 2 := by linear_combination W.b_relation
    rw [e]
    pv
  · exact b6_dominates hq (by tauto) hb h.2.2.2.2.2.1 (by norm_num) (by norm_num) (by norm_num)
  · exact b6_dominates hq (by tauto) hb h.2.2.2.2.2.1 (by norm_num) (by norm_num) (by norm_num)
  · obtain ⟨e1, e2, e3, e4, e6, e4', -⟩ := h
    have := Val.of1 e1
    have : Val q W.a₃ 3 := ⟨e3⟩
    refine b4_dominates hq h2 hb (fun hd => e4' ?_) (by norm_num) (by norm_num) (by norm_num)
    unfold b₄ at hd
    rw [dvd_add_left (by pv)] at hd
    exact odd_pow_cancel hq h2 (k := 1) (by norm_num; exact hd)
  · obtain ⟨e1, e2, e3, e4, e6, e6', -⟩ := h
    have : Val q W.a₃ 3 := ⟨e3⟩
    refine b6_dominates hq (by tauto) hb (fun hd => e6' ?_) (by norm_num) (by norm_num) (by norm_num)
    unfold b₆ at hd
    rw [dvd_add_right (by pv)] at hd
    exact odd_pow_cancel hq h2 (k := 2) (by norm_num; exact hd)

/-! ### the prime 3 -/

theorem three_a {x y z : ℤ} (hz : ¬ (3 : ℤ) ∣ z) :
    ¬ (3 : ℤ) ^ 3 ∣ -3 * x ^ 3 * z + 3 * x ^ 2 * y ^ 2 - 32 * y ^ 3 - 36 * z ^ 2 + 36 * x * y * z := by
  have hp : Prime (3 : ℤ) := Int.prime_three
  rintro ⟨q, hq⟩
  have h1 : (3 : ℤ) ∣ 32 * y ^ 3 :=
    ⟨-9 * q - x ^ 3 * z + x ^ 2 * y ^ 2 - 12 * z ^ 2 + 12 * x * y * z, by linarith⟩
  obtain ⟨y, rfl⟩ : (3 : ℤ) ∣ y := by
    rcases hp.dvd_or_dvd h1 with h | h
    · norm_num at h
    · exact hp.dvd_of_dvd_pow h
  have h2 : (3 : ℤ) ∣ x ^ 3 * z := ⟨-3 * q + 3 * x ^ 2 * y ^ 2 - 32 * y ^ 3 * 3 - 4 * z ^ 2 + 12 * x * y * z, by linarith⟩
  obtain ⟨x, rfl⟩ : (3 : ℤ) ∣ x := by
    rcases hp.dvd_or_dvd h2 with h | h
    · exact hp.dvd_of_dvd_pow h
    · exact absurd h hz
  apply hz
  have h3 : (3 : ℤ) ∣ 4 * z ^ 2 :=
    ⟨-q - 3 * x ^ 3 * z * 1 + 9 * x ^ 2 * y ^ 2 - 32 * y ^ 3 + 12 * x * y * z, by linarith⟩
  rcases hp.dvd_or_dvd h3 with h | h
  · norm_num at h
  · exact hp.dvd_of_dvd_pow h

theorem three_b {x y z : ℤ} (hz : ¬ (3 : ℤ) ∣ z) :
    ¬ (3 : ℤ) ^ 3 ∣ -x ^ 3 * z + 3 * x ^ 2 * y ^ 2 - 96 * y ^ 3 - 36 * z ^ 2 + 36 * x * y * z := by
  have hp : Prime (3 : ℤ) := Int.prime_three
  rintro ⟨q, hq⟩
  have h2 : (3 : ℤ) ∣ x ^ 3 * z := ⟨-9 * q + x ^ 2 * y ^ 2 - 32 * y ^ 3 - 12 * z ^ 2 + 12 * x * y * z, by linarith⟩
  obtain ⟨x, rfl⟩ : (3 : ℤ) ∣ x := by
    rcases hp.dvd_or_dvd h2 with h | h
    · exact hp.dvd_of_dvd_pow h
    · exact absurd h hz
  have h1 : (3 : ℤ) ∣ 32 * y ^ 3 :=
    ⟨-3 * q - 3 * x ^ 3 * z + 3 * x ^ 2 * y ^ 2 - 4 * z ^ 2 + 12 * x * y * z, by linarith⟩
  obtain ⟨y, rfl⟩ : (3 : ℤ) ∣ y := by
    rcases hp.dvd_or_dvd h1 with h | h
    · norm_num at h
    · exact hp.dvd_of_dvd_pow h
  apply hz
  have h3 : (3 : ℤ) ∣ 4 * z ^ 2 :=
    ⟨-q - x ^ 3 * z + 9 * x ^ 2 * y ^ 2 - 96 * y ^ 3 + 12 * x * y * z, by linarith⟩
  rcases hp.dvd_or_dvd h3 with h | h
  · norm_num at h
  · exact hp.dvd_of_dvd_pow h

/-- 3: the exponent is at most 5 -/
theorem NF.upper_three {k : Kodaira} {c : ℕ} (h : NF 3 W k c) (hk : k.Additive) :
    ¬ (3 : ℤ) ^ (k.components + 5) ∣ W.Δ := by
  have hq := Nat.prime_three
  have hb := h.blev hq
  have key : ∀ {n : ℕ} {u : ℤ}, 4 * W.Δ = 3 ^ n * u → ¬ (3 : ℤ) ^ 3 ∣ u → ¬ (3 : ℤ) ^ (n + 3) ∣ W.Δ := by
    intro n u h1 h2 h3
    have := h3.mul_left 4
    rw [h1, pow_add] at this
    exact h2 ((mul_dvd_mul_iff_left (by positivity)).1 this)
  rcases k with (_ | n) | m | _ | _ | _ | _ | _ | _
  · exact hk.elim
  · exact hk.elim
  · exact fun hd => h.upper_odd hq (by norm_num) hk (by simp) ((pow_dvd_pow _ (by omega)).trans hd)
  · obtain ⟨e3, e4, e6, e2, e6', -⟩ := h
    obtain ⟨⟨x, hx⟩, ⟨y, hy⟩, ⟨z, hz⟩, -⟩ := hb
    simp only [Nat.cast_ofNat] at *
    refine key (n := 3) (u := -3 * x ^ 3 * z + 3 * x ^ 2 * y ^ 2 - 32 * y ^ 3 - 36 * z ^ 2 + 36 * x * y * z)
      (by rw [disc4, hx, hy, hz]; ring) (three_a fun hd => e6' ?_)
    have : (3 : ℤ) ^ 2 ∣ W.b₆ := by
      obtain ⟨w, rfl⟩ := hd; exact ⟨w, by rw [hz]; ring⟩
    have := Val.of1 e3
    unfold b₆ at *
    rw [dvd_add_right (by pv)] at *
    exact odd_pow_cancel (q := 3) hq (by norm_num) (k := 2) (by norm_num; assumption)
  · exact fun hd => h.upper_odd hq (by norm_num) hk (by simp) ((pow_dvd_pow _ (by omega)).trans hd)
  · have e6' := h.2.2.2.2.2.1
    obtain ⟨⟨x, hx⟩, ⟨y, hy⟩, ⟨z, hz⟩, -⟩ := hb
    simp only [Nat.cast_ofNat] at *
    refine key (n := 5) (u := -x ^ 3 * z + 3 * x ^ 2 * y ^ 2 - 96 * y ^ 3 - 36 * z ^ 2 + 36 * x * y * z)
      (by rw [disc4, hx, hy, hz]; ring) (three_b fun hd => e6' ?_)
    obtain ⟨w, rfl⟩ := hd; exact ⟨w, by rw [hz]; ring⟩
  · have e6' := h.2.2.2.2.2.1
    obtain ⟨⟨x, hx⟩, ⟨y, hy⟩, ⟨z, hz⟩, -⟩ := hb
    simp only [Nat.cast_ofNat] at *
    refine key (n := 9) (u := -3 * x ^ 3 * z + 3 * x ^ 2 * y ^ 2 - 32 * y ^ 3 - 36 * z ^ 2 + 36 * x * y * z)
      (by rw [disc4, hx, hy, hz]; ring) (three_a fun hd => e6' ?_)
    obtain ⟨w, rfl⟩ := hd
    exact ⟨w, by change W.b₆ = _; rw [hz]; ring⟩
  · exact fun hd => h.upper_odd hq (by norm_num) hk (by simp) ((pow_dvd_pow _ (by omega)).trans hd)
  · obtain ⟨e1, e2, e3, e4, e6, e6', -⟩ := h
    obtain ⟨⟨x, hx⟩, ⟨y, hy⟩, ⟨z, hz⟩, -⟩ := hb
    simp only [Nat.cast_ofNat] at *
    refine key (n := 11) (u := -x ^ 3 * z + 3 * x ^ 2 * y ^ 2 - 96 * y ^ 3 - 36 * z ^ 2 + 36 * x * y * z)
      (by rw [disc4, hx, hy, hz]; ring) (three_b fun hd => e6' ?_)
    have : (3 : ℤ) ^ 6 ∣ W.b₆ := by
      obtain ⟨w, rfl⟩ := hd; exact ⟨w, by rw [hz]; ring⟩
    have : Val 3 W.a₃ 3 := ⟨e3⟩
    unfold b₆ at *
    rw [dvd_add_right (by pv)] at *
    exact odd_pow_cancel (q := 3) hq (by norm_num) (k := 2) (by norm_num; assumption)

/-! ### the prime 2 -/

theorem two_II {x y z A B : ℤ} (hz : z = A ^ 2 + 2 * B) (hB : ¬ (2 : ℤ) ∣ B) :
    ¬ (16 : ℤ) ∣ -4 * x ^ 3 * z + 4 * x ^ 2 * y ^ 2 - 32 * y ^ 3 - 27 * z ^ 2 + 36 * x * y * z := by
  rintro ⟨q, hq⟩
  obtain ⟨B, rfl⟩ : ∃ k, B = 2 * k + 1 := ⟨B / 2, by omega⟩
  rcases Int.even_or_odd' A with ⟨A, rfl | rfl⟩
  · obtain ⟨w, rfl⟩ : ∃ w, z = 2 * (2 * w + 1) := ⟨A ^ 2 + B, by rw [hz]; ring⟩
    rcases Int.even_or_odd' x with ⟨x, rfl | rfl⟩ <;> rcases Int.even_or_odd' y with ⟨y, rfl | rfl⟩ <;>
    · ring_nf at hq; omega
  · obtain ⟨w, rfl⟩ : ∃ w, z = 2 * w + 1 := ⟨2 * A ^ 2 + 2 * A + 2 * B + 1, by rw [hz]; ring⟩
    ring_nf at hq; omega

theorem two_III {x y z A B : ℤ} (hz : z = A ^ 2 + 4 * B) (h : ¬ (2 : ℤ) ∣ x * z - y ^ 2) :
    ¬ (64 : ℤ) ∣ -4 * x ^ 3 * z + 4 * x ^ 2 * y ^ 2 - 32 * y ^ 3 - 27 * z ^ 2 + 36 * x * y * z := by
  rintro ⟨q, hq⟩
  rcases Int.even_or_odd' A with ⟨A, rfl | rfl⟩
  · obtain ⟨w, rfl⟩ : ∃ w, z = 4 * w := ⟨A ^ 2 + B, by rw [hz]; ring⟩
    rcases Int.even_or_odd' y with ⟨y, rfl | rfl⟩
    · exact absurd ⟨2 * x * w - 2 * y ^ 2, by ring⟩ h
    rcases Int.even_or_odd' x with ⟨x, rfl | rfl⟩
    · rcases Int.even_or_odd' x with ⟨x, rfl | rfl⟩ <;> rcases Int.even_or_odd' w with ⟨w, rfl | rfl⟩ <;>
      · ring_nf at hq; omega
    · ring_nf at hq; omega
  · obtain ⟨w, rfl⟩ : ∃ w, z = 2 * w + 1 := ⟨2 * A ^ 2 + 2 * A + 2 * B, by rw [hz]; ring⟩
    ring_nf at hq; omega

theorem two_I0 {x y z A1 A2 A3 A4 A6 : ℤ} (hx : x = A1 ^ 2 + 2 * A2) (hy : y = A1 * A3 + A4)
    (hz : z = A3 ^ 2 + 2 * A6) (h : ¬ (2 : ℤ) ∣ A2 * A4 + A6) :
    ¬ (8 : ℤ) ∣ -x ^ 3 * z + x ^ 2 * y ^ 2 - 16 * y ^ 3 - 27 * z ^ 2 + 18 * x * y * z := by
  rintro ⟨q, hq⟩
  subst hx hy hz
  rcases Int.even_or_odd' A1 with ⟨A1, rfl | rfl⟩ <;> rcases Int.even_or_odd' A2 with ⟨A2, rfl | rfl⟩ <;>
  rcases Int.even_or_odd' A3 with ⟨A3, rfl | rfl⟩ <;> rcases Int.even_or_odd' A4 with ⟨A4, rfl | rfl⟩ <;>
  rcases Int.even_or_odd' A6 with ⟨A6, rfl | rfl⟩ <;>
  · first
    | (exfalso; apply h; ring_nf; omega)
    | (ring_nf at hq; omega)

theorem two_IIIs {x y z A1 A2 A3 A4 A6 : ℤ} (hx : x = A1 ^ 2 + 4 * A2) (hy : y = A1 * A3 + A4)
    (hz : z = A3 ^ 2 + 2 * A6) (h : ¬ (2 : ℤ) ∣ A4) :
    ¬ (64 : ℤ) ∣ -x ^ 3 * z + x ^ 2 * y ^ 2 - 32 * y ^ 3 - 108 * z ^ 2 + 36 * x * y * z := by
  rintro ⟨q, hq⟩
  obtain ⟨A4, rfl⟩ : ∃ k, A4 = 2 * k + 1 := ⟨A4 / 2, by omega⟩
  rcases Int.even_or_odd' A1 with ⟨A1, rfl | rfl⟩
  · obtain ⟨X, rfl⟩ : ∃ w, x = 4 * w := ⟨A1 ^ 2 + A2, by rw [hx]; ring⟩
    obtain ⟨y, rfl⟩ : ∃ w, y = 2 * w + 1 := ⟨A1 * A3 + A4, by rw [hy]; ring⟩
    rcases Int.even_or_odd' z with ⟨z, rfl | rfl⟩
    · rcases Int.even_or_odd' X with ⟨X, rfl | rfl⟩ <;> rcases Int.even_or_odd' z with ⟨z, rfl | rfl⟩ <;>
      · ring_nf at hq; omega
    · ring_nf at hq; omega
  · obtain ⟨X, rfl⟩ : ∃ w, x = 2 * w + 1 := ⟨2 * A1 ^ 2 + 2 * A1 + 2 * A2, by rw [hx]; ring⟩
    rcases Int.even_or_odd' A3 with ⟨A3, rfl | rfl⟩
    · obtain ⟨z, rfl⟩ : ∃ w, z = 2 * w := ⟨2 * A3 ^ 2 + A6, by rw [hz]; ring⟩
      obtain ⟨y, rfl⟩ : ∃ w, y = 2 * w + 1 := ⟨(2 * A1 + 1) * A3 + A4, by rw [hy]; ring⟩
      ring_nf at hq; omega
    · obtain ⟨z, rfl⟩ : ∃ w, z = 2 * w + 1 := ⟨2 * A3 ^ 2 + 2 * A3 + A6, by rw [hz]; ring⟩
      obtain ⟨y, rfl⟩ : ∃ w, y = 2 * w := ⟨2 * A1 * A3 + A1 + A3 + A4 + 1, by rw [hy]; ring⟩
      ring_nf at hq; omega

theorem two_IIs {x y z A1 A2 A3 A4 A6 : ℤ} (hx : x = A1 ^ 2 + 4 * A2) (hy : y = A1 * A3 + 2 * A4)
    (hz : z = A3 ^ 2 + 2 * A6) (h : ¬ (2 : ℤ) ∣ A6) :
    ¬ (32 : ℤ) ∣ -x ^ 3 * z + x ^ 2 * y ^ 2 - 32 * y ^ 3 - 108 * z ^ 2 + 36 * x * y * z := by
  rintro ⟨q, hq⟩
  obtain ⟨A6, rfl⟩ : ∃ k, A6 = 2 * k + 1 := ⟨A6 / 2, by omega⟩
  rcases Int.even_or_odd' A1 with ⟨A1, rfl | rfl⟩
  · obtain ⟨X, rfl⟩ : ∃ w, x = 4 * w := ⟨A1 ^ 2 + A2, by rw [hx]; ring⟩
    obtain ⟨y, rfl⟩ : ∃ w, y = 2 * w := ⟨A1 * A3 + A4, by rw [hy]; ring⟩
    rcases Int.even_or_odd' A3 with ⟨A3, rfl | rfl⟩
    · obtain ⟨z, rfl⟩ : ∃ w, z = 2 * (2 * w + 1) := ⟨A3 ^ 2 + A6, by rw [hz]; ring⟩
      ring_nf at hq; omega
    · obtain ⟨z, rfl⟩ : ∃ w, z = 2 * w + 1 := ⟨2 * A3 ^ 2 + 2 * A3 + 2 * A6 + 1, by rw [hz]; ring⟩
      ring_nf at hq; omega
  · obtain ⟨X, rfl⟩ : ∃ w, x = 4 * w + 1 := ⟨A1 ^ 2 + A1 + A2, by rw [hx]; ring⟩
    rcases Int.even_or_odd' A3 with ⟨A3, rfl | rfl⟩
    · obtain ⟨z, rfl⟩ : ∃ w, z = 2 * (2 * w + 1) := ⟨A3 ^ 2 + A6, by rw [hz]; ring⟩
      obtain ⟨y, rfl⟩ : ∃ w, y = 2 * w := ⟨(2 * A1 + 1) * A3 + A4, by rw [hy]; ring⟩
      ring_nf at hq; omega
    · obtain ⟨z, rfl⟩ : ∃ w, z = 4 * w + 3 := ⟨A3 ^ 2 + A3 + A6, by rw [hz]; ring⟩
      obtain ⟨y, rfl⟩ : ∃ w, y = 2 * w + 1 := ⟨2 * A1 * A3 + A1 + A3 + A4, by rw [hy]; ring⟩
      ring_nf at hq; omega

theorem two_star_odd {x y z P A1 A2 A3 A4 A6 : ℤ} (hx : x = A1 ^ 2 + 2 * A2) (hy : y = A1 * A3 + 2 * A4)
    (hz : z = A3 ^ 2 + 4 * A6) (h2 : ¬ (2 : ℤ) ∣ A2) (h3 : ¬ (2 : ℤ) ∣ A3) (hP : P = 1 ∨ P = 2 ∨ ∃ R, P = 4 * R) :
    ¬ (16 : ℤ) ∣ -x ^ 3 * z + x ^ 2 * y ^ 2 - 16 * P * y ^ 3 - 27 * P ^ 2 * z ^ 2 + 18 * P * x * y * z := by
  rintro ⟨q, hq⟩
  obtain ⟨A2, rfl⟩ : ∃ k, A2 = 2 * k + 1 := ⟨A2 / 2, by omega⟩
  obtain ⟨A3, rfl⟩ : ∃ k, A3 = 2 * k + 1 := ⟨A3 / 2, by omega⟩
  obtain ⟨z, rfl⟩ : ∃ w, z = 4 * w + 1 := ⟨A3 ^ 2 + A3 + A6, by rw [hz]; ring⟩
  rcases Int.even_or_odd' A1 with ⟨A1, rfl | rfl⟩
  · obtain ⟨X, rfl⟩ : ∃ w, x = 4 * w + 2 := ⟨A1 ^ 2 + A2, by rw [hx]; ring⟩
    obtain ⟨y, rfl⟩ : ∃ w, y = 2 * w := ⟨A1 * (2 * A3 + 1) + A4, by rw [hy]; ring⟩
    rcases hP with rfl | rfl | ⟨R, rfl⟩ <;>
    · ring_nf at hq; omega
  · obtain ⟨X, rfl⟩ : ∃ w, x = 4 * w + 3 := ⟨A1 ^ 2 + A1 + A2, by rw [hx]; ring⟩
    obtain ⟨y, rfl⟩ : ∃ w, y = 2 * w + 1 := ⟨A1 * (2 * A3 + 1) + A3 + A4, by rw [hy]; ring⟩
    rcases hP with rfl | rfl | ⟨R, rfl⟩ <;>
    · ring_nf at hq; omega

theorem two_star_even {x y z P A1 A2 A3 A4 A6 : ℤ} (hx : x = A1 ^ 2 + 2 * A2) (hy : y = A1 * A3 + A4)
    (hz : z = A3 ^ 2 + 2 * A6) (h2 : ¬ (2 : ℤ) ∣ A2) (h3 : ¬ (2 : ℤ) ∣ A4) (hP : P = 1 ∨ ∃ R, P = 2 * R) :
    ¬ (16 : ℤ) ∣ -x ^ 3 * z + x ^ 2 * y ^ 2 - 32 * P * y ^ 3 - 108 * P ^ 2 * z ^ 2 + 36 * P * x * y * z := by
  rintro ⟨q, hq⟩
  obtain ⟨A2, rfl⟩ : ∃ k, A2 = 2 * k + 1 := ⟨A2 / 2, by omega⟩
  obtain ⟨A4, rfl⟩ : ∃ k, A4 = 2 * k + 1 := ⟨A4 / 2, by omega⟩
  rcases Int.even_or_odd' A1 with ⟨A1, rfl | rfl⟩
  · obtain ⟨X, rfl⟩ : ∃ w, x = 4 * w + 2 := ⟨A1 ^ 2 + A2, by rw [hx]; ring⟩
    obtain ⟨y, rfl⟩ : ∃ w, y = 2 * w + 1 := ⟨A1 * A3 + A4, by rw [hy]; ring⟩
    rcases Int.even_or_odd' z with ⟨z, rfl | rfl⟩ <;> rcases hP with rfl | ⟨R, rfl⟩ <;>
    · ring_nf at hq; omega
  · obtain ⟨X, rfl⟩ : ∃ w, x = 2 * w + 1 := ⟨2 * A1 ^ 2 + 2 * A1 + 2 * A2 + 1, by rw [hx]; ring⟩
    rcases Int.even_or_odd' A3 with ⟨A3, rfl | rfl⟩
    · obtain ⟨z, rfl⟩ : ∃ w, z = 2 * w := ⟨2 * A3 ^ 2 + A6, by rw [hz]; ring⟩
      obtain ⟨y, rfl⟩ : ∃ w, y = 2 * w + 1 := ⟨(2 * A1 + 1) * A3 + A4, by rw [hy]; ring⟩
      rcases hP with rfl | ⟨R, rfl⟩ <;>
      · ring_nf at hq; omega
    · obtain ⟨z, rfl⟩ : ∃ w, z = 2 * w + 1 := ⟨2 * A3 ^ 2 + 2 * A3 + A6, by rw [hz]; ring⟩
      obtain ⟨y, rfl⟩ : ∃ w, y = 2 * w := ⟨2 * A1 * A3 + A1 + A3 + A4 + 1, by rw [hy]; ring⟩
      rcases hP with rfl | ⟨R, rfl⟩ <;>
      · ring_nf at hq; omega

theorem two_dvd_a1 (h : (2 : ℤ) ∣ W.b₂) : (2 : ℤ) ∣ W.a₁ := by
  have : (2 : ℤ) ∣ W.a₁ ^ 2 := by
    unfold b₂ at h
    omega
  exact Int.prime_two.dvd_of_dvd_pow this

/-- 2: the exponent is 2 for the types `IV` and `IV*` -/
theorem NF.upper_two_IV {k : Kodaira} {c : ℕ} (h : NF 2 W k c) (hk : k = .IV ∨ k = .IVstar) :
    ¬ (2 : ℤ) ^ (k.components + 2) ∣ W.Δ := by
  have hb := h.blev Nat.prime_two
  rcases hk with rfl | rfl
  · exact b6_dominates Nat.prime_two (by norm_num) hb h.2.2.2.2.2.1 (by norm_num) (by norm_num) (by norm_num)
  · exact b6_dominates Nat.prime_two (by norm_num) hb h.2.2.2.2.2.1 (by norm_num) (by norm_num) (by norm_num)

/-- 2: the exponent is at most 8 -/
theorem NF.upper_two {k : Kodaira} {c : ℕ} (h : NF 2 W k c) (hk : k.Additive) :
    ¬ (2 : ℤ) ^ (k.components + 8) ∣ W.Δ := by
  have key : ∀ {n i m : ℕ} {u : ℤ}, W.Δ = 2 ^ n * u → ¬ (2 : ℤ) ^ i ∣ u → n + i ≤ m → ¬ (2 : ℤ) ^ m ∣ W.Δ := by
    intro n i m u h1 h2 hm h3
    rw [h1, show m = n + (m - n) by omega, pow_add] at h3
    exact h2 ((pow_dvd_pow _ (by omega)).trans ((mul_dvd_mul_iff_left (by positivity)).1 h3))
  have hdisc : ∀ {x y z : ℤ}, W.b₂ = 4 * x → W.b₄ = y → W.b₆ = z →
      W.Δ = -4 * x ^ 2 * (4 * x * z - y ^ 2) - 8 * y ^ 3 - 27 * z ^ 2 + 36 * x * y * z := by
    intro x y z h1 h2 h3
    have := disc4 W
    rw [h1, h2, h3] at this
    linarith
  rcases k with (_ | n) | (_ | m) | _ | _ | _ | _ | _ | _
  · exact hk.elim
  · exact hk.elim
  · obtain ⟨⟨A1, h1⟩, ⟨A2, h2⟩, ⟨A3, h3⟩, ⟨A4, h4⟩, ⟨A6, h6⟩, h7, -⟩ := h
    simp only [Nat.cast_ofNat] at *
    have h : ¬ (2 : ℤ) ∣ A2 * A4 + A6 := by
      intro hd
      apply h7
      have e : cubDisc W = 2 ^ 6 * (A2 ^ 2 * A4 ^ 2 - A6 ^ 2 + 2 * (-2 * A4 ^ 3 - 2 * A2 ^ 3 * A6 - 13 * A6 ^ 2 +
          9 * A2 * A4 * A6)) := by
        unfold cubDisc; rw [h2, h4, h6]; ring
      rw [e, show (7 : ℕ) = 6 + 1 by rfl, pow_mul_dvd two_ne_zero]
      refine dvd_add ?_ (dvd_mul_right _ _)
      rw [show A2 ^ 2 * A4 ^ 2 - A6 ^ 2 = (A2 * A4 + A6) * (A2 * A4 - A6) by ring]
      exact hd.mul_right _
    refine key (n := 8) (i := 3) (u := _) ?_ (by norm_num; exact two_I0 (A1 := A1) (A3 := A3) rfl rfl rfl h)
      (by simp [Kodaira.components])
    rw [hdisc (x := A1 ^ 2 + 2 * A2) (by unfold b₂; rw [h1, h2]; ring) rfl rfl,
      show W.b₄ = 8 * (A1 * A3 + A4) by unfold b₄; rw [h1, h3, h4]; ring,
      show W.b₆ = 16 * (A3 ^ 2 + 2 * A6) by unfold b₆; rw [h3, h6]; ring]
    ring
  · obtain ⟨hs, h7⟩ := h
    obtain ⟨⟨A1, h1⟩, ⟨A2, h2⟩, h2', ⟨A3, h3⟩, ⟨A4, h4⟩, ⟨A6, h6⟩⟩ := hs
    simp only [Nat.cast_ofNat] at *
    have n2 : ¬ (2 : ℤ) ∣ A2 := by
      rintro ⟨w, rfl⟩; exact h2' ⟨w, by rw [h2]; ring⟩
    by_cases hm : (m + 1) % 2 = 1
    · rw [if_pos hm] at h7
      obtain ⟨i, rfl⟩ : ∃ i, m = 2 * i := ⟨m / 2, by omega⟩
      rw [show (2 * i + 1 + 4) / 2 = i + 2 by omega] at h3
      rw [show (2 * i + 1 + 5) / 2 = i + 3 by omega] at h4
      have n3 : ¬ (2 : ℤ) ∣ A3 := by
        rintro ⟨w, rfl⟩
        apply h7.1
        exact ⟨2 * w ^ 2 + 2 * A6, by rw [h3, h6]; ring⟩
      refine key (n := 2 * i + 8) (i := 4) (u := _) ?_ (by
        norm_num
        exact two_star_odd (P := 2 ^ i) (A1 := A1) (A4 := A4) (A6 := A6) rfl rfl rfl n2 n3 (by
          rcases i with _ | _ | i
          · simp
          · simp
          · exact Or.inr (Or.inr ⟨2 ^ i, by ring⟩)))
        (by simp only [Kodaira.components]; omega)
      rw [hdisc (x := A1 ^ 2 + 2 * A2) (by unfold b₂; rw [h1, h2]; ring) rfl rfl,
        show W.b₄ = 2 ^ (i + 3) * (A1 * A3 + 2 * A4) by unfold b₄; rw [h1, h3, h4]; ring,
        show W.b₆ = 2 ^ (2 * i + 4) * (A3 ^ 2 + 4 * A6) by unfold b₆; rw [h3, h6]; ring]
      ring
    · rw [if_neg hm] at h7
      obtain ⟨i, rfl⟩ : ∃ i, m = 2 * i + 1 := ⟨m / 2, by omega⟩
      rw [show (2 * i + 1 + 1 + 4) / 2 = i + 3 by omega] at h3
      rw [show (2 * i + 1 + 1 + 5) / 2 = i + 3 by omega] at h4
      have n3 : ¬ (2 : ℤ) ∣ A4 := by
        rintro ⟨w, rfl⟩
        apply h7.1
        exact ⟨2 * w ^ 2 - 2 * A2 * A6, by rw [h2, h4, h6]; ring⟩
      refine key (n := 2 * i + 10) (i := 4) (u := _) ?_ (by
        norm_num
        exact two_star_even (P := 2 ^ i) (A1 := A1) (A3 := A3) (A6 := A6) rfl rfl rfl n2 n3 (by
          rcases i with _ | i
          · simp
          · exact Or.inr ⟨2 ^ i, by ring⟩))
        (by simp only [Kodaira.components]; omega)
      rw [hdisc (x := A1 ^ 2 + 2 * A2) (by unfold b₂; rw [h1, h2]; ring) rfl rfl,
        show W.b₄ = 2 ^ (i + 4) * (A1 * A3 + A4) by unfold b₄; rw [h1, h3, h4]; ring,
        show W.b₆ = 2 ^ (2 * i + 6) * (A3 ^ 2 + 2 * A6) by unfold b₆; rw [h3, h6]; ring]
      ring
  · obtain ⟨⟨A3, h3⟩, ⟨A4, h4⟩, ⟨A6, h6⟩, h2, h6', -⟩ := h
    simp only [Nat.cast_ofNat] at *
    obtain ⟨A1, h1⟩ := two_dvd_a1 h2
    have n6 : ¬ (2 : ℤ) ∣ A6 := by
      rintro ⟨w, rfl⟩; exact h6' ⟨w, by rw [h6]; ring⟩
    refine key (n := 4) (i := 4) (u := _) ?_ (by
        norm_num; exact two_II (x := A1 ^ 2 + W.a₂) (y := A1 * A3 + A4) (A := A3) rfl n6)
      (by simp [Kodaira.components])
    rw [hdisc (x := A1 ^ 2 + W.a₂) (by unfold b₂; rw [h1]; ring) rfl rfl,
      show W.b₄ = 4 * (A1 * A3 + A4) by unfold b₄; rw [h1, h3, h4]; ring,
      show W.b₆ = 4 * (A3 ^ 2 + 2 * A6) by unfold b₆; rw [h3, h6]; ring]
    ring
  · obtain ⟨⟨A3, h3⟩, ⟨A4, h4⟩, h2, ⟨A6, h6⟩, h8, -⟩ := h
    simp only [Nat.cast_ofNat] at *
    obtain ⟨A1, h1⟩ := two_dvd_a1 h2
    have n8 : ¬ (2 : ℤ) ∣ (A1 ^ 2 + W.a₂) * (A3 ^ 2 + 4 * A6) - (A1 * A3 + A4) ^ 2 := by
      rintro ⟨w, hw⟩
      exact h8 ⟨w, by unfold b₈; rw [h1, h3, h4, h6]; linear_combination 4 * hw⟩
    refine key (n := 4) (i := 6) (u := _) ?_ (by norm_num; exact two_III (A := A3) rfl n8)
      (by simp [Kodaira.components])
    rw [hdisc (x := A1 ^ 2 + W.a₂) (by unfold b₂; rw [h1]; ring) rfl rfl,
      show W.b₄ = 4 * (A1 * A3 + A4) by unfold b₄; rw [h1, h3, h4]; ring,
      show W.b₆ = 4 * (A3 ^ 2 + 4 * A6) by unfold b₆; rw [h3, h6]; ring]
    ring
  · exact fun hd => h.upper_two_IV (Or.inl rfl) ((pow_dvd_pow _ (by omega)).trans hd)
  · exact fun hd => h.upper_two_IV (Or.inr rfl) ((pow_dvd_pow _ (by omega)).trans hd)
  · obtain ⟨⟨A1, h1⟩, ⟨A2, h2⟩, ⟨A3, h3⟩, ⟨A4, h4⟩, ⟨A6, h6⟩, h7, -⟩ := h
    simp only [Nat.cast_ofNat] at *
    have n4 : ¬ (2 : ℤ) ∣ A4 := by
      rintro ⟨w, rfl⟩; exact h7 ⟨w, by rw [h4]; ring⟩
    refine key (n := 10) (i := 6) (u := _) ?_ (by
        norm_num; exact two_IIIs (A1 := A1) (A2 := A2) (A3 := A3) (A6 := A6) rfl rfl rfl n4)
      (by simp [Kodaira.components])
    rw [hdisc (x := A1 ^ 2 + 4 * A2) (by unfold b₂; rw [h1, h2]; ring) rfl rfl,
      show W.b₄ = 16 * (A1 * A3 + A4) by unfold b₄; rw [h1, h3, h4]; ring,
      show W.b₆ = 64 * (A3 ^ 2 + 2 * A6) by unfold b₆; rw [h3, h6]; ring]
    ring
  · obtain ⟨⟨A1, h1⟩, ⟨A2, h2⟩, ⟨A3, h3⟩, ⟨A4, h4⟩, ⟨A6, h6⟩, h7, -⟩ := h
    simp only [Nat.cast_ofNat] at *
    have n6 : ¬ (2 : ℤ) ∣ A6 := by
      rintro ⟨w, rfl⟩; exact h7 ⟨w, by rw [h6]; ring⟩
    refine key (n := 10) (i := 5) (u := _) ?_ (by
        norm_num; exact two_IIs (A1 := A1) (A2 := A2) (A3 := A3) (A4 := A4) rfl rfl rfl n6)
      (by simp [Kodaira.components])
    rw [hdisc (x := A1 ^ 2 + 4 * A2) (by unfold b₂; rw [h1, h2]; ring) rfl rfl,
      show W.b₄ = 16 * (A1 * A3 + 2 * A4) by unfold b₄; rw [h1, h3, h4]; ring,
      show W.b₆ = 64 * (A3 ^ 2 + 2 * A6) by unfold b₆; rw [h3, h6]; ring]
    ring

/-! ### the exponents recorded by the code -/

/-- exponent of the conductor by Ogg's formula -/
def oggExp (p : ℕ) (W : WeierstrassCurve ℤ) (k : Kodaira) : ℤ := padicValInt p W.Δ - k.components + 1

theorem padic_of {n : ℕ} (hq : q.Prime) (hD : W.Δ ≠ 0) : (q : ℤ) ^ n ∣ W.Δ ↔ n ≤ padicValInt q W.Δ := by
  have : Fact q.Prime := ⟨hq⟩
  rw [padicValInt_dvd_iff]
  simp [hD]

/-- C64: an equation in normal form -/
theorem NF.oggExp (hq : q.Prime) (hD : W.Δ ≠ 0) {k : Kodaira} {c : ℕ} (h : NF q W k c) :
    (k = .I 0 → oggExp q W k = 0) ∧ (∀ n, k = .I (n + 1) → oggExp q W k = 1 ∧ padicValInt q W.Δ = n + 1) ∧
    (k.Additive → 2 ≤ oggExp q W k ∧ (5 ≤ q → oggExp q W k = 2) ∧ (q = 3 → oggExp q W k ≤ 5) ∧
      (q = 2 → oggExp q W k ≤ 8)) := by
  unfold Tate.oggExp
  refine ⟨?_, ?_, fun hk => ⟨?_, ?_, ?_, ?_⟩⟩
  · rintro rfl
    have h1 : ¬ (q : ℤ) ^ 1 ∣ W.Δ := by simpa using h.1
    rw [padic_of hq hD] at h1
    simp only [Kodaira.components]
    omega
  · rintro n rfl
    obtain ⟨-, -, -, -, h1, h2, -⟩ := h
    rw [padic_of hq hD] at h1 h2
    simp only [Kodaira.components]
    omega
  · have := (padic_of hq hD).1 (h.lower hq hk)
    omega
  · intro h5
    have h1 := (padic_of hq hD).1 (h.lower hq hk)
    have h2 := h.upper_odd hq (by omega) hk (Or.inl (by omega))
    rw [padic_of hq hD] at h2
    omega
  · rintro rfl
    have h2 := h.upper_three hk
    have := (padic_of (q := 3) (n := k.components + 5) hq hD).not.1 (by exact_mod_cast h2)
    omega
  · rintro rfl
    have h2 := h.upper_two hk
    have := (padic_of (q := 2) (n := k.components + 8) hq hD).not.1 (by exact_mod_cast h2)
    omega

/-- C64: the exponent of the conductor by Ogg's formula, for every type: 0 for good reduction, 1 for
multiplicative reduction, otherwise at least 2, with equality for `p ≥ 5`, at most 5 for `p = 3` and at most
8 for `p = 2` -/
theorem C64_exponent {p : ℕ} (hp : p.Prime) {W : WeierstrassCurve ℤ} (hD : W.Δ ≠ 0) {k : Kodaira} {c : ℕ}
    (h : HasType p W k c) :
    (k = .I 0 → oggExp p W k = 0) ∧ (∀ n, k = .I (n + 1) → oggExp p W k = 1 ∧ padicValInt p W.Δ = n + 1) ∧
    (k.Additive → 2 ≤ oggExp p W k ∧ (5 ≤ p → oggExp p W k = 2) ∧ (p = 3 → oggExp p W k ≤ 5) ∧
      (p = 2 → oggExp p W k ≤ 8)) := by
  obtain ⟨V, hV, hN⟩ := h
  have := hN.oggExp hp (by rw [hV.disc]; exact hD)
  unfold oggExp at *
  rwa [hV.disc] at this

/-- multiplicative reduction is recognised by `c4` -/
theorem NF.c4 (hq : q.Prime) {k : Kodaira} {c : ℕ} (h : NF q W k c) :
    (∀ n, k = .I (n + 1) → ¬ (q : ℤ) ∣ W.c₄) ∧ (k.Additive → (q : ℤ) ∣ W.c₄) := by
  have hp : Prime (q : ℤ) := Nat.prime_iff_prime_int.1 hq
  constructor
  · rintro n rfl
    obtain ⟨h3, h4, h6, h2, -⟩ := h
    rw [c4_b2 hq ⟨h3, h4, h6⟩]
    exact h2
  · intro hk
    have hb := h.blev hq
    have key : ∀ {i j l m : ℕ}, BLev q W (i + 1) (j + 1) l m → (q : ℤ) ∣ W.c₄ := by
      intro i j l m hb
      unfold c₄
      exact dvd_sub (dvd_pow ((dvd_pow_self _ (by omega)).trans hb.b2) (by norm_num))
        (((dvd_pow_self _ (by omega)).trans hb.b4).mul_left _)
    rcases k with (_ | n) | (_ | m) | _ | _ | _ | _ | _ | _
    · exact hk.elim
    · exact hk.elim
    · exact key (i := 0) (j := 1) hb
    · refine key (i := 0) (j := (m + 4) / 2) (l := m + 4) (m := m + 5) ?_
      rw [show (m + 4) / 2 + 1 = (m + 6) / 2 by omega]
      exact hb
    all_goals first | exact key (i := 0) (j := 0) hb | exact key (i := 0) (j := 1) hb |
      exact key (i := 1) (j := 2) hb | exact key (i := 1) (j := 3) hb

/-- the product of the local factors -/
def prodN (l : List (ℤ × Red)) : ℤ := (l.map fun e => e.1 ^ e.2.ordN.toNat).prod

theorem prodN_pos : ∀ {l : List (ℤ × Red)}, (∀ e ∈ l, 0 < e.1) → 0 < prodN l
  | [], _ => by simp [prodN]
  | e :: l, h => by
    have := prodN_pos (l := l) fun x hx => h x (by simp [hx])
    have h1 := h e (by simp)
    unfold prodN at *
    rw [List.map_cons, List.prod_cons]
    positivity

theorem prime_dvd_prodN {l : List (ℤ × Red)} {p : ℤ} (hp : Prime p) (hp0 : 0 < p)
    (hl : ∀ e ∈ l, 0 < e.1 ∧ Prime e.1) (h : p ∣ prodN l) : p ∈ l.map Prod.fst := by
  unfold prodN at h
  obtain ⟨a, ha, hd⟩ := (Prime.dvd_prod_iff hp).1 h
  obtain ⟨e, he, rfl⟩ := List.mem_map.1 ha
  have h1 := hp.dvd_of_dvd_pow hd
  obtain ⟨h2, h3⟩ := hl e he
  have : p = e.1 := by
    have h4 := (Prime.associated_of_dvd hp h3 h1)
    rcases Int.associated_iff.1 h4 with h | h <;> omega
  exact List.mem_map.2 ⟨e, he, this.symm⟩

theorem prodN_dvd {D : ℤ} : ∀ {l : List (ℤ × Red)}, (∀ e ∈ l, 0 < e.1 ∧ Prime e.1 ∧ e.1 ^ e.2.ordN.toNat ∣ D) →
    (l.map Prod.fst).Nodup → prodN l ∣ D
  | [], _, _ => by simp [prodN]
  | e :: l, h, hn => by
    rw [List.map_cons, List.nodup_cons] at hn
    have h1 := prodN_dvd (l := l) (fun x hx => h x (by simp [hx])) hn.2
    obtain ⟨h2, h3, h4⟩ := h e (by simp)
    change e.1 ^ e.2.ordN.toNat * prodN l ∣ D
    refine IsCoprime.mul_dvd ?_ h4 h1
    apply IsCoprime.pow_left
    rw [h3.coprime_iff_not_dvd]
    exact fun hd => hn.1 (prime_dvd_prodN h3 h2 (fun x hx => ⟨(h x (by simp [hx])).1, (h x (by simp [hx])).2.1⟩) hd)

theorem prodN_val {p : ℕ} (hp : p.Prime) : ∀ {l : List (ℤ × Red)}, (∀ e ∈ l, 0 < e.1 ∧ Prime e.1) →
    (l.map Prod.fst).Nodup → ∀ e ∈ l, e.1 = p → padicValInt p (prodN l) = e.2.ordN.toNat
  | [], _, _, e, he, _ => by simp at he
  | a :: l, h, hn, e, he, hep => by
    have : Fact p.Prime := ⟨hp⟩
    rw [List.map_cons, List.nodup_cons] at hn
    have hpos := prodN_pos (l := l) (fun x hx => (h x (by simp [hx])).1)
    have hl : ∀ e ∈ l, 0 < e.1 ∧ Prime e.1 := fun x hx => h x (by simp [hx])
    obtain ⟨a1, a2⟩ := h a (by simp)
    change padicValInt p (a.1 ^ a.2.ordN.toNat * prodN l) = _
    rw [padicValInt.mul (pow_ne_zero _ a1.ne') hpos.ne']
    rcases List.mem_cons.1 he with rfl | he'
    · have e1 : padicValInt p (prodN l) = 0 := by
        apply padicValInt.eq_zero_of_not_dvd
        intro hd
        rw [← hep] at hd
        exact hn.1 (prime_dvd_prodN a2 a1 hl hd)
      rw [e1, hep, ← Nat.cast_pow, padicValInt.of_nat, padicValNat.prime_pow, add_zero]
    · have e1 : padicValInt p (a.1 ^ a.2.ordN.toNat) = 0 := by
        apply padicValInt.eq_zero_of_not_dvd
        intro hd
        have hp' : Prime (p : ℤ) := Nat.prime_iff_prime_int.1 hp
        have h1 := hp'.dvd_of_dvd_pow hd
        have h4 := (Prime.associated_of_dvd hp' a2 h1)
        have : (p : ℤ) = a.1 := by
          rcases Int.associated_iff.1 h4 with h | h <;> omega
        exact hn.1 (List.mem_map.2 ⟨e, he', by rw [hep, this]⟩)
      rw [e1, prodN_val hp hl hn.2 e he' hep, zero_add]

/-- C64: what the constructor `CurveRed(E)` records for the exponents of the conductor, and the conductor.
Every prime of the table has exponent at least 1; it is 1 exactly when `p` does not divide `c4`; it is at
most 2 for `p ≥ 5`, at most 5 for 3 and at most 8 for 2; the conductor is positive, divides the discriminant
of the minimal model and has the same prime divisors. -/
theorem C64_conductor (L : Lib) {pdivs : ℤ → List ℤ} (hpd : PdivsOk pdivs) {S : Cdf} {E : Cv} (hS : S.Ok E)
    {fuel : ℕ} (hf : E.W.Δ.natAbs ≤ fuel) :
    ∃ (E' : Cv) (l : List (ℤ × Red)) (N : ℤ), curveRedOf L fuel pdivs S = some (Cd.ofAi E', l, N) ∧
      QIso E.W E'.W ∧ GlobMin E'.W ∧ 0 < N ∧ N ∣ E'.W.Δ ∧ (∀ p, Prime p → (p ∣ N ↔ p ∣ E'.W.Δ)) ∧
      BadList (l.map Prod.fst) E'.W.Δ ∧
      ∀ e ∈ l, e.2.ordN = padicValInt e.1.toNat N ∧ 1 ≤ e.2.ordN ∧ (e.2.ordN = 1 ↔ ¬ e.1 ∣ E'.W.c₄) ∧
        (5 ≤ e.1 → e.2.ordN ≤ 2) ∧ (e.1 = 3 → e.2.ordN ≤ 5) ∧ (e.1 = 2 → e.2.ordN ≤ 8) := by
  obtain ⟨E', l, h1, h2, h3, h4, h5⟩ := C63_curve_red L hpd hS hf
  have hD : E'.W.Δ ≠ 0 := by
    intro h0
    have := h3.disc_dvd h2
    rw [h0, zero_dvd_iff] at this
    exact hS.ns this
  have hkey : ∀ e ∈ l, 0 < e.1 ∧ Prime e.1 ∧ e.1 ∣ E'.W.Δ := fun e he =>
    (h4.2 e.1).1 (List.mem_map.2 ⟨e, he, rfl⟩)
  have hloc : ∀ e ∈ l, 1 ≤ e.2.ordN ∧ e.2.ordN ≤ padicValInt e.1.toNat E'.W.Δ ∧
      (e.2.ordN = 1 ↔ ¬ e.1 ∣ E'.W.c₄) ∧
        (5 ≤ e.1 → e.2.ordN ≤ 2) ∧ (e.1 = 3 → e.2.ordN ≤ 5) ∧ (e.1 = 2 → e.2.ordN ≤ 8) := by
    intro e he
    obtain ⟨p0, p1, p2⟩ := hkey e he
    obtain ⟨k, c, ht, -, -, hN⟩ := (h5 e he).type
    generalize hp : e.1.toNat = p at *
    have hpe : e.1 = p := by omega
    rw [hpe] at p1 p2 ⊢
    have hq : p.Prime := Nat.prime_iff_prime_int.2 p1
    obtain ⟨t1, t2, t3⟩ := C64_exponent hq hD ht
    obtain ⟨V, hV, hN'⟩ := ht
    obtain ⟨c1, c2⟩ := hN'.c4 hq
    rw [hV.c4] at c1 c2
    rw [← oggExp] at hN
    have hcomp : 1 ≤ k.components := by
      rcases k with (_ | n) | m | _ | _ | _ | _ | _ | _ <;> simp [Kodaira.components]
    have hle : e.2.ordN ≤ padicValInt p E'.W.Δ := by
      rw [hN]; unfold oggExp; omega
    rcases hk : k with (_ | n) | m | _ | _ | _ | _ | _ | _
    · rw [hk] at hN'
      exact absurd p2 (by rw [← hV.disc]; exact hN'.1)
    · have := (t2 n hk).1
      have h7 := c1 n hk
      refine ⟨by omega, hle, ⟨fun _ => h7, fun _ => by omega⟩, by omega, by omega, by omega⟩
    all_goals
      have ha : k.Additive := by rw [hk]; trivial
      obtain ⟨t4, t5, t6, t7⟩ := t3 ha
      have := c2 ha
      refine ⟨by omega, hle, ⟨fun h => by omega, fun h => absurd this h⟩, fun h => ?_, fun h => ?_, fun h => ?_⟩
      · have := t5 (by omega); omega
      · have := t6 (by omega); omega
      · have := t7 (by omega); omega
  refine ⟨E', l, prodN l, h1, h2, h3, prodN_pos fun e he => (hkey e he).1, ?_, ?_, h4, ?_⟩
  · refine prodN_dvd (fun e he => ⟨(hkey e he).1, (hkey e he).2.1, ?_⟩) h4.1
    have h6 := (hloc e he).2.1
    obtain ⟨p0, p1, p2⟩ := hkey e he
    obtain ⟨p, hp⟩ : ∃ p : ℕ, e.1 = p := ⟨e.1.toNat, by omega⟩
    rw [hp] at p1 h6 ⊢
    rw [padic_of (Nat.prime_iff_prime_int.2 p1) hD]
    simp only [Int.toNat_natCast] at h6
    omega
  · have key : ∀ p, 0 < p → Prime p → (p ∣ prodN l ↔ p ∣ E'.W.Δ) := by
      intro p hp0 hp
      constructor
      · intro hd
        exact ((h4.2 p).1 (prime_dvd_prodN hp hp0 (fun e he => ⟨(hkey e he).1, (hkey e he).2.1⟩) hd)).2.2
      · intro hd
        obtain ⟨e, he, rfl⟩ := List.mem_map.1 ((h4.2 p).2 ⟨hp0, hp, hd⟩)
        have h6 := (hloc e he).1
        refine (dvd_pow_self e.1 (n := e.2.ordN.toNat) (by omega)).trans ?_
        exact List.dvd_prod (List.mem_map.2 ⟨e, he, rfl⟩)
    intro p hp
    rcases lt_trichotomy p 0 with h | h | h
    · rw [← neg_dvd, ← neg_dvd (b := E'.W.Δ)]
      exact key (-p) (by omega) (Int.prime_iff_natAbs_prime.2 (by
        rw [Int.natAbs_neg]; exact Int.prime_iff_natAbs_prime.1 hp))
    · exact absurd h hp.ne_zero
    · exact key p h hp
  · intro e he
    obtain ⟨l1, -, l2⟩ := hloc e he
    obtain ⟨p0, p1, p2⟩ := hkey e he
    refine ⟨?_, l1, l2⟩
    have hpe : e.1 = (e.1.toNat : ℤ) := by omega
    rw [prodN_val (Nat.prime_iff_prime_int.2 (by rw [← hpe]; exact p1))
      (fun e he => ⟨(hkey e he).1, (hkey e he).2.1⟩) h4.1 e he hpe]
    omega

/-- the bounds at 2 and 3 are attained: the curves 256a1 and 243a1 -/
example : (curveRedOf lib0 9 pdivs0 ⟨Cd.ofAi ⟨0, 1, 0, -3, 1⟩, true, true, [2]⟩).map Prod.snd =
    some ([(2, ⟨9, 8, 0, 3, 2⟩)], 256) := by decide +kernel

example : (curveRedOf lib0 9 pdivs0 ⟨Cd.ofAi ⟨0, 0, 1, 0, -1⟩, true, true, [3]⟩).map Prod.snd =
    some ([(3, ⟨5, 5, 0, 2, 1⟩)], 243) := by decide +kernel

end Eclib.Tate
