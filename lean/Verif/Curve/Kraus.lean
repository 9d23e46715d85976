import Verif.Curve.Invariants

/-!
# C28, C29: Kraus's criterion and the reconstruction of the coefficients
-/

namespace Eclib.Curve

open Marith (mod div val isqrt)

/-- Kraus's conditions as congruences -/
def Kraus (c4 c6 : ℤ) : Prop :=
  c4 ^ 3 - c6 ^ 2 ≠ 0 ∧ 1728 ∣ c4 ^ 3 - c6 ^ 2 ∧ ¬ 27 ∣ c6 - 9 ∧ ¬ 27 ∣ c6 + 9 ∧
    (4 ∣ c6 + 1 ∨ (16 ∣ c4 ∧ (32 ∣ c6 ∨ 32 ∣ c6 - 8)))

theorem validInvariants_iff (c4 c6 : ℤ) : validInvariants c4 c6 = true ↔ Kraus c4 c6 := by
  have e : c4 * c4 * c4 - c6 * c6 = c4 ^ 3 - c6 ^ 2 := by ring
  have m9 : mod c6 27 = 9 ↔ 27 ∣ c6 - 9 := mod_eq_iff (by norm_num) (by norm_num) (by norm_num)
  have m9' : mod c6 27 = -9 ↔ 27 ∣ c6 + 9 := by
    rw [mod_eq_iff (by norm_num) (by norm_num) (by norm_num), sub_neg_eq_add]
  have m4 : mod c6 4 = -1 ↔ 4 ∣ c6 + 1 := by
    rw [mod_eq_iff (by norm_num) (by norm_num) (by norm_num), sub_neg_eq_add]
  have m0 : mod c6 32 = 0 ↔ 32 ∣ c6 := by
    rw [mod_eq_iff (by norm_num) (by norm_num) (by norm_num), sub_zero]
  have m8 : mod c6 32 = 8 ↔ 32 ∣ c6 - 8 := mod_eq_iff (by norm_num) (by norm_num) (by norm_num)
  have d1 := div_iff' (p := 1728) (by norm_num) (c4 ^ 3 - c6 ^ 2)
  have d2 := div_iff' (p := 16) (by norm_num) c4
  unfold validInvariants Kraus
  simp only [e, Int.sign_eq_zero_iff_zero, m9, m9', m4, m0, m8, Bool.not_eq_true',
    ← Bool.not_eq_true, d1, d2, Bool.or_eq_true, decide_eq_true_iff]
  split_ifs <;> simp_all; tauto

/-! ## the congruences modulo 27 and 64 -/

/-- the syzygy behind the reconstruction -/
theorem syz (x c4 c6 : ℤ) : c4 ^ 3 * (x ^ 3 - 3 * x * c4 - 2 * c6) =
    (c4 * x + c6) ^ 2 * (c4 * x - 2 * c6) - (3 * (c4 * x) + 2 * c6) * (c4 ^ 3 - c6 ^ 2) := by ring

/-- modulo 27 -/
theorem kraus27 {x c4 c6 : ℤ} (h : 27 ∣ c4 ^ 3 - c6 ^ 2) (h1 : ¬ 27 ∣ c6 - 9) (h2 : ¬ 27 ∣ c6 + 9)
    (hx : 3 ∣ x + c6) : 3 ∣ x ^ 2 - c4 ∧ 27 ∣ x ^ 3 - 3 * x * c4 - 2 * c6 := by
  have h3 : 3 ∣ c4 ^ 3 - c6 ^ 2 := dvd_trans (by norm_num) h
  have p3 : Prime (3 : ℤ) := Int.prime_three
  -- c4 ≡ c6² modulo 3
  have hc : 3 ∣ c4 - c6 ^ 2 := by
    have e : c4 - c6 ^ 2 = (c4 ^ 3 - c6 ^ 2) - (c4 ^ 3 - c4) := by ring
    rw [e]
    refine dvd_sub h3 ?_
    rcases (by omega : c4 % 3 = 0 ∨ c4 % 3 = 1 ∨ c4 % 3 = 2) with h | h | h
    · obtain ⟨q, hq⟩ : ∃ q, c4 = 3 * q := ⟨c4 / 3, by omega⟩
      exact ⟨9 * q ^ 3 - q, by rw [hq]; ring⟩
    · obtain ⟨q, hq⟩ : ∃ q, c4 = 3 * q + 1 := ⟨c4 / 3, by omega⟩
      exact ⟨9 * q ^ 3 + 9 * q ^ 2 + 2 * q, by rw [hq]; ring⟩
    · obtain ⟨q, hq⟩ : ∃ q, c4 = 3 * q + 2 := ⟨c4 / 3, by omega⟩
      exact ⟨9 * q ^ 3 + 18 * q ^ 2 + 11 * q + 2, by rw [hq]; ring⟩
  obtain ⟨k, hk⟩ := hx
  obtain ⟨m, hm⟩ := hc
  refine ⟨⟨x * k - c6 * k - m, by linear_combination (x - c6) * hk - hm⟩, ?_⟩
  by_cases hc6 : 3 ∣ c6
  · obtain ⟨q, rfl⟩ := hc6
    obtain ⟨d, hd⟩ : 3 ∣ c4 := ⟨m + 3 * q ^ 2, by linear_combination hm⟩
    have hq : (3 : ℤ) ∣ q := by
      apply p3.dvd_of_dvd_pow (n := 2)
      obtain ⟨w, hw⟩ := h
      rw [hd] at hw
      exact ⟨d ^ 3 - w, by linarith⟩
    obtain ⟨r, rfl⟩ := hq
    obtain ⟨s, rfl⟩ : 3 ∣ r := by omega
    obtain ⟨e, he⟩ : 3 ∣ x := ⟨k - 9 * s, by linarith⟩
    exact ⟨e ^ 3 - e * d - 2 * s, by rw [he, hd]; ring⟩
  · have hc4 : ¬ (3 : ℤ) ∣ c4 := by
      intro hh
      apply hc6
      apply p3.dvd_of_dvd_pow (n := 2)
      have : c6 ^ 2 = c4 - 3 * m := by linarith
      rw [this]; exact dvd_sub hh (Dvd.intro _ rfl)
    have hc43 : ¬ (3 : ℤ) ∣ c4 ^ 3 := fun h => hc4 (p3.dvd_of_dvd_pow h)
    -- c4 ≡ 1 modulo 3
    have hone : ∃ n, c4 = 1 + 3 * n := by
      rcases (by omega : c6 % 3 = 1 ∨ c6 % 3 = 2) with h | h
      · obtain ⟨q, hq⟩ : ∃ q, c6 = 3 * q + 1 := ⟨c6 / 3, by omega⟩
        exact ⟨m + 3 * q ^ 2 + 2 * q, by rw [hq] at hm; linarith⟩
      · obtain ⟨q, hq⟩ : ∃ q, c6 = 3 * q + 2 := ⟨c6 / 3, by omega⟩
        exact ⟨m + 3 * q ^ 2 + 4 * q + 1, by rw [hq] at hm; linarith⟩
    obtain ⟨n, hn⟩ := hone
    have e1 : c4 * x + c6 = 3 * (k + n * x) := by rw [hn]; linarith
    have e2 : c4 * x - 2 * c6 = 3 * (k + n * x - c6) := by rw [hn]; linarith
    have key : (3 : ℤ) ^ 3 ∣ c4 ^ 3 * (x ^ 3 - 3 * x * c4 - 2 * c6) := by
      rw [syz, e1, e2]
      refine dvd_sub ⟨(k + n * x) ^ 2 * (k + n * x - c6), by ring⟩ (Dvd.dvd.mul_left ?_ _)
      exact h
    exact p3.pow_dvd_of_dvd_mul_left 3 hc43 key

/-- modulo 64, the case `c6 ≡ -1 (mod 4)` -/
theorem kraus64 {x c4 c6 : ℤ} (h : 64 ∣ c4 ^ 3 - c6 ^ 2) (h1 : 4 ∣ c6 + 1) (hx : 4 ∣ x + c6) :
    (64 ∣ x ^ 3 - 3 * x * c4 - 2 * c6 ∧ 16 ∣ x ^ 2 - c4) ∨
    (64 ∣ x ^ 3 - 3 * x * c4 - 2 * c6 - 48 ∧ 16 ∣ x ^ 2 - c4 - 8) := by
  obtain ⟨j, hj⟩ := h1
  obtain ⟨i, hi⟩ := hx
  obtain ⟨w, hw⟩ := h
  -- c4 ≡ 1 modulo 8
  have hc4 : ∃ n, c4 = 1 + 8 * n := by
    have h8 : 8 ∣ c4 ^ 3 - 1 := by
      have : c6 = 4 * j - 1 := by linarith
      rw [this] at hw
      exact ⟨8 * w + 2 * j ^ 2 - j, by linarith⟩
    obtain ⟨q, hq⟩ : ∃ q, c4 = 8 * q + c4 % 8 := ⟨c4 / 8, by omega⟩
    have h0 : 8 ∣ (c4 % 8) ^ 3 - 1 := by
      have e : (c4 % 8) ^ 3 - 1 = c4 ^ 3 - 1 - 8 * (64 * q ^ 3 + 24 * q ^ 2 * (c4 % 8)
          + 3 * q * (c4 % 8) ^ 2) := by
        have e2 : c4 ^ 3 = (8 * q + c4 % 8) ^ 3 := by rw [← hq]
        rw [e2]; ring
      rw [e]; exact dvd_sub h8 (Dvd.intro _ rfl)
    have hl := Int.emod_nonneg c4 (by norm_num : (8 : ℤ) ≠ 0)
    have hl' := Int.emod_lt_of_pos c4 (by norm_num : (0 : ℤ) < 8)
    generalize c4 % 8 = r at *
    interval_cases r <;> first | (exfalso; revert h0; decide) | exact ⟨q, by linarith⟩
  obtain ⟨n, hn⟩ := hc4
  obtain ⟨k, hk⟩ : ∃ k, c4 * x + c6 = 4 * k := ⟨i + 2 * n * x, by rw [hn]; linarith⟩
  have hc6 : c6 = 4 * j - 1 := by linarith
  have F := syz x c4 c6
  have e2 : c4 * x - 2 * c6 = 4 * k - 3 * c6 := by linarith
  rw [hk, e2, hw] at F
  obtain ⟨f, hf⟩ : ∃ f, f = x ^ 3 - 3 * x * c4 - 2 * c6 := ⟨_, rfl⟩
  rw [← hf] at F ⊢
  -- c4^3 = 1 + 8 N
  have hN : c4 ^ 3 = 1 + 8 * (n * (3 + 24 * n + 64 * n ^ 2)) := by rw [hn]; ring
  generalize n * (3 + 24 * n + 64 * n ^ 2) = N at hN
  rw [hN] at F
  have G : c4 ^ 2 * (x ^ 2 - c4) = 8 * (k * (2 * k - c6)) - 64 * w := by
    have : c4 ^ 2 * (x ^ 2 - c4) = (c4 * x) ^ 2 - c4 ^ 3 := by ring
    rw [this]
    have e3 : c4 * x = 4 * k - c6 := by linarith
    rw [e3]; linear_combination (-1 : ℤ) * hw
  obtain ⟨g, hg⟩ : ∃ g, g = x ^ 2 - c4 := ⟨_, rfl⟩
  rw [← hg] at G ⊢
  have hM : c4 ^ 2 = 1 + 16 * (n * (1 + 4 * n)) := by rw [hn]; ring
  generalize n * (1 + 4 * n) = M at hM
  rw [hM, hc6] at G
  rw [hc6] at F
  -- 16 ∣ f
  have h16 : 16 ∣ f := by
    have a1 : (1 + 8 * N) * f = 16 * (k ^ 2 * (4 * k - 3 * (4 * j - 1))
        - 4 * (3 * (c4 * x) + 2 * (4 * j - 1)) * w) := by linear_combination F
    have : (16 : ℤ) = 2 ^ 4 := by norm_num
    rw [this]
    refine Int.prime_two.pow_dvd_of_dvd_mul_left 4 (a := 1 + 8 * N) (by omega) ?_
    rw [a1]; exact Dvd.intro _ rfl
  obtain ⟨f', rfl⟩ := h16
  have F' : (1 + 8 * N) * f' = k ^ 2 * (4 * k - 3 * (4 * j - 1))
        - 4 * ((3 * (c4 * x) + 2 * (4 * j - 1)) * w) := by
    have : (16 : ℤ) ≠ 0 := by norm_num
    apply mul_left_cancel₀ this
    linear_combination F
  rcases Int.even_or_odd' k with ⟨l, rfl | rfl⟩
  · left
    constructor
    · have : 4 ∣ f' := ⟨l ^ 2 * (8 * l - 3 * (4 * j - 1)) - (3 * (c4 * x) + 2 * (4 * j - 1)) * w
        - 2 * N * f', by linear_combination F'⟩
      obtain ⟨q, rfl⟩ := this
      exact ⟨q, by ring⟩
    · exact ⟨l * (4 * l - (4 * j - 1)) - 4 * w - M * g, by linear_combination G⟩
  · right
    constructor
    · have : 4 ∣ f' - 3 := ⟨(l ^ 2 + l) * (4 * (2 * l + 1) - 3 * (4 * j - 1)) + (2 * l + 1) - 3 * j
        - (3 * (c4 * x) + 2 * (4 * j - 1)) * w - 2 * N * f', by linear_combination F'⟩
      obtain ⟨q, hq⟩ := this
      exact ⟨q, by linarith⟩
    · exact ⟨(2 * l + 1) ^ 2 - 2 * j * (2 * l + 1) + l - 4 * w - M * g, by linear_combination G⟩

/-- modulo 64, the case `c6 ≡ 0, 8 (mod 32)` -/
theorem kraus64' {x c4 c6 : ℤ} (h1 : 16 ∣ c4) (h2 : 32 ∣ c6 ∨ 32 ∣ c6 - 8) (hx : 4 ∣ x + c6) :
    4 ∣ x ∧ 16 ∣ x ^ 2 - c4 ∧
    (64 ∣ x ^ 3 - 3 * x * c4 - 2 * c6 ∨ 64 ∣ x ^ 3 - 3 * x * c4 - 2 * c6 - 48) := by
  have h4 : 4 ∣ x := by omega
  obtain ⟨y, rfl⟩ := h4
  obtain ⟨d, rfl⟩ := h1
  refine ⟨Dvd.intro _ rfl, ⟨y ^ 2 - d, by ring⟩, ?_⟩
  rcases h2 with ⟨e, rfl⟩ | ⟨e, he⟩
  · left; exact ⟨y ^ 3 - 3 * y * d - e, by ring⟩
  · right; exact ⟨y ^ 3 - 3 * y * d - e - 1, by linear_combination (-2 : ℤ) * he⟩

/-- what `c4c6_to_ai` computes on valid invariants -/
theorem c4c6ToAi_spec {c4 c6 : ℤ} (h : Kraus c4 c6) :
    (c4c6ToAi c4 c6).toCv.W.c₄ = c4 ∧ (c4c6ToAi c4 c6).toCv.W.c₆ = c6 ∧
    (c4c6ToAi c4 c6).b2 = (c4c6ToAi c4 c6).toCv.W.b₂ ∧
    (c4c6ToAi c4 c6).b4 = (c4c6ToAi c4 c6).toCv.W.b₄ ∧
    (c4c6ToAi c4 c6).b6 = (c4c6ToAi c4 c6).toCv.W.b₆ ∧
    (c4c6ToAi c4 c6).b8 = (c4c6ToAi c4 c6).toCv.W.b₈ ∧
    ((c4c6ToAi c4 c6).a1 = 0 ∨ (c4c6ToAi c4 c6).a1 = 1) ∧
    ((c4c6ToAi c4 c6).a3 = 0 ∨ (c4c6ToAi c4 c6).a3 = 1) ∧
    (-1 ≤ (c4c6ToAi c4 c6).a2 ∧ (c4c6ToAi c4 c6).a2 ≤ 1) := by
  obtain ⟨hne, h1728, h9, h9', h2⟩ := h
  obtain ⟨x, hx⟩ : ∃ x, x = mod (-c6) 12 := ⟨_, rfl⟩
  obtain ⟨hc, hl1, hl2⟩ := Marith.Props.C04_mod_big (-c6) 12 (by norm_num)
  rw [← hx] at hc hl1 hl2
  have hc : (12 : ℤ) ∣ x - -c6 := hc
  norm_num at hl1 hl2 hc
  have h27 : 27 ∣ c4 ^ 3 - c6 ^ 2 := dvd_trans (by norm_num) h1728
  have h64 : 64 ∣ c4 ^ 3 - c6 ^ 2 := dvd_trans (by norm_num) h1728
  obtain ⟨k1, k2⟩ := kraus27 h27 h9 h9' (x := x) (dvd_trans (by norm_num) hc)
  obtain ⟨f, hf⟩ : ∃ f, f = x ^ 3 - 3 * x * c4 - 2 * c6 := ⟨_, rfl⟩
  obtain ⟨g, hg⟩ : ∃ g, g = x ^ 2 - c4 := ⟨_, rfl⟩
  rw [← hf] at k2
  rw [← hg] at k1
  -- the 2-adic information
  have k3 : 8 ∣ g ∧ 16 ∣ f ∧
      ((x % 4 = 0 ∧ 16 ∣ g ∧ (64 ∣ f ∨ 64 ∣ f - 48)) ∨
       (x % 4 = 1 ∧ ((64 ∣ f ∧ 16 ∣ g) ∨ (64 ∣ f - 48 ∧ 16 ∣ g - 8)))) := by
    rcases h2 with h2 | ⟨h16, h32⟩
    · have := kraus64 h64 h2 (x := x) (dvd_trans (by norm_num) hc)
      rw [← hf, ← hg] at this
      omega
    · have := kraus64' h16 h32 (x := x) (dvd_trans (by norm_num) hc)
      rw [← hf, ← hg] at this
      omega
  obtain ⟨k4, k5, k6⟩ := k3
  obtain ⟨b4, hb4⟩ : ∃ b4, g = 24 * b4 := ⟨g / 24, by omega⟩
  obtain ⟨b6, hb6⟩ : ∃ b6, f = 432 * b6 := ⟨f / 432, by omega⟩
  have e4 : (x * x - c4).fdiv 24 = b4 := fdiv_eq (by norm_num) (by rw [← hb4, hg]; ring)
  have e6 : (-x * (x * x) + 36 * x * b4 - c6).fdiv 216 = b6 := by
    apply fdiv_eq (by norm_num)
    have h3 : x ^ 3 - 3 * x * c4 - 2 * c6 = 432 * b6 := by rw [← hf, hb6]
    have h4 : x ^ 2 - c4 = 24 * b4 := by rw [← hg, hb4]
    linarith [congrArg (fun t => 3 * x * t) h4]
  unfold c4c6ToAi
  simp only [← hx, e4, e6]
  -- parities
  have hpar : ∃ a1 a2 a3 a4 a6, oddBit x = a1 ∧ oddBit b6 = a3 ∧ (a1 = 0 ∨ a1 = 1) ∧
      (a3 = 0 ∨ a3 = 1) ∧ x - a1 = 4 * a2 ∧ b4 - a1 * a3 = 2 * a4 ∧ b6 - a3 = 4 * a6 ∧
      -1 ≤ a2 ∧ a2 ≤ 1 := by
    have h6 : b6 % 4 = 0 ∨ b6 % 4 = 1 := by omega
    refine ⟨oddBit x, (x - oddBit x) / 4, oddBit b6, (b4 - oddBit x * oddBit b6) / 2,
      (b6 - oddBit b6) / 4, rfl, rfl, ?_⟩
    unfold oddBit
    rcases k6 with ⟨k6, k7, k8⟩ | ⟨k6, k7⟩
    · rw [if_neg (by omega : ¬ x % 2 = 1)]
      split_ifs <;> omega
    · rw [if_pos (by omega : x % 2 = 1)]
      split_ifs <;> omega
  obtain ⟨a1, a2, a3, a4, a6, o1, o3, q1, q3, r2, r4, r6, l1, l2⟩ := hpar
  rw [o1, o3]
  have t2 : (x - a1).fdiv 4 = a2 := fdiv_eq (by norm_num) r2
  have t4 : (b4 - a1 * a3).fdiv 2 = a4 := fdiv_eq (by norm_num) r4
  have t6 : (b6 - a3).fdiv 4 = a6 := fdiv_eq (by norm_num) r6
  rw [t2, t4, t6]
  have s1 : a1 ^ 2 = a1 := by rcases q1 with rfl | rfl <;> norm_num
  have s3 : a3 ^ 2 = a3 := by rcases q3 with rfl | rfl <;> norm_num
  have w2 : x = a1 ^ 2 + 4 * a2 := by rw [s1]; linarith
  have w4 : b4 = 2 * a4 + a1 * a3 := by linarith
  have w6 : b6 = a3 ^ 2 + 4 * a6 := by rw [s3]; linarith
  have hW2 : (Cv.W ⟨a1, a2, a3, a4, a6⟩).b₂ = x := by
    simp only [Cv.W, WeierstrassCurve.b₂]; exact w2.symm
  have hW4 : (Cv.W ⟨a1, a2, a3, a4, a6⟩).b₄ = b4 := by
    simp only [Cv.W, WeierstrassCurve.b₄]; exact w4.symm
  have hW6 : (Cv.W ⟨a1, a2, a3, a4, a6⟩).b₆ = b6 := by
    simp only [Cv.W, WeierstrassCurve.b₆]; exact w6.symm
  have h3 : x ^ 3 - 3 * x * c4 - 2 * c6 = 432 * b6 := by rw [← hf, hb6]
  have h4 : x ^ 2 - c4 = 24 * b4 := by rw [← hg, hb4]
  refine ⟨?_, ?_, hW2.symm, hW4.symm, hW6.symm, ?_, q1, q3, l1, l2⟩
  · rw [WeierstrassCurve.c₄, hW2, hW4]; linarith
  · rw [WeierstrassCurve.c₆, hW2, hW4, hW6]
    linarith [congrArg (fun t => 3 * x * t) h4]
  · apply fdiv_eq (by norm_num)
    rw [WeierstrassCurve.b_relation, hW2, hW4, hW6]; ring

/-- the invariants of an integral equation satisfy Kraus's conditions -/
theorem kraus_of_curve (E : Cv) (h : E.W.Δ ≠ 0) : Kraus E.W.c₄ E.W.c₆ := by
  have hrel := E.W.c_relation
  have hb2 : E.W.b₂ = E.a1 ^ 2 + 4 * E.a2 := by simp only [Cv.W, WeierstrassCurve.b₂]
  have hb4 : E.W.b₄ = 2 * E.a4 + E.a1 * E.a3 := by simp only [Cv.W, WeierstrassCurve.b₄]
  have hb6 : E.W.b₆ = E.a3 ^ 2 + 4 * E.a6 := by simp only [Cv.W, WeierstrassCurve.b₆]
  have hc4 : E.W.c₄ = E.W.b₂ ^ 2 - 24 * E.W.b₄ := rfl
  have hc6 : E.W.c₆ = -E.W.b₂ ^ 3 + 36 * E.W.b₂ * E.W.b₄ - 216 * E.W.b₆ := rfl
  have p3 : Prime (3 : ℤ) := Int.prime_three
  have not9 : ∀ e : ℤ, 3 ∣ e → (27 ∣ E.W.c₆ - 3 * e) → 27 ∣ E.W.c₆ := by
    rintro e ⟨e, rfl⟩ ⟨k, hk⟩
    have : (3 : ℤ) ∣ E.W.b₂ := by
      apply p3.dvd_of_dvd_pow (n := 3)
      exact ⟨12 * E.W.b₂ * E.W.b₄ - 72 * E.W.b₆ - 9 * k - 3 * e, by linarith⟩
    obtain ⟨q, hq⟩ := this
    rw [hc6, hq]
    exact ⟨-q ^ 3 + 4 * q * E.W.b₄ - 8 * E.W.b₆, by ring⟩
  refine ⟨?_, ?_, ?_, ?_, ?_⟩
  · rw [← hrel]; exact mul_ne_zero (by norm_num) h
  · rw [← hrel]; exact Dvd.intro _ rfl
  · intro hh
    have := not9 3 (by norm_num) (by norm_num; exact hh)
    omega
  · intro hh
    have := not9 (-3) (by norm_num) (by norm_num; exact hh)
    omega
  · rcases Int.even_or_odd' E.a1 with ⟨k, hk | hk⟩
    · right
      obtain ⟨q, hq⟩ : ∃ q, E.W.b₂ = 4 * q := ⟨k ^ 2 + E.a2, by rw [hb2, hk]; ring⟩
      obtain ⟨r, hr⟩ : ∃ r, E.W.b₄ = 2 * r := ⟨E.a4 + k * E.a3, by rw [hb4, hk]; ring⟩
      constructor
      · exact ⟨q ^ 2 - 3 * r, by rw [hc4, hq, hr]; ring⟩
      · rcases Int.even_or_odd' E.a3 with ⟨l, hl | hl⟩
        · left
          exact ⟨-2 * q ^ 3 + 9 * q * r - 27 * (l ^ 2 + E.a6), by
            rw [hc6, hq, hr, hb6, hl]; ring⟩
        · right
          exact ⟨-2 * q ^ 3 + 9 * q * r - 27 * (l ^ 2 + l + E.a6) - 7, by
            rw [hc6, hq, hr, hb6, hl]; ring⟩
    · left
      obtain ⟨q, hq⟩ : ∃ q, E.W.b₂ = 4 * q + 1 := ⟨k ^ 2 + k + E.a2, by rw [hb2, hk]; ring⟩
      exact ⟨-(16 * q ^ 3 + 12 * q ^ 2 + 3 * q) + 9 * E.W.b₂ * E.W.b₄ - 54 * E.W.b₆, by
        rw [hc6, hq]; ring⟩

namespace Props

open WeierstrassCurve

/-- C28 (Kraus): `valid_invariants(c4,c6)` is true exactly when some integral Weierstrass equation
with non-zero discriminant has these invariants. -/
theorem C28_valid_invariants (c4 c6 : ℤ) : validInvariants c4 c6 = true ↔
    ∃ W : WeierstrassCurve ℤ, W.Δ ≠ 0 ∧ W.c₄ = c4 ∧ W.c₆ = c6 := by
  rw [validInvariants_iff]
  constructor
  · intro h
    obtain ⟨h1, h2, -⟩ := c4c6ToAi_spec h
    refine ⟨_, ?_, h1, h2⟩
    intro h0
    apply h.1
    have hr := WeierstrassCurve.c_relation (c4c6ToAi c4 c6).toCv.W
    rw [h0, h1, h2, mul_zero] at hr
    exact hr.symm
  · rintro ⟨W, h0, rfl, rfl⟩
    have := kraus_of_curve ⟨W.a₁, W.a₂, W.a₃, W.a₄, W.a₆⟩ (by exact h0)
    exact this

example : validInvariants 496 20008 = true ∧ validInvariants 496 20009 = false := by decide +kernel

/-- C29: on valid invariants `c4c6_to_ai` returns coefficients with exactly these invariants, with
`a1, a3 ∈ {0,1}`, `a2 ∈ {-1,0,1}`, and the `b`-invariants of the equation. -/
theorem C29_c4c6_to_ai (c4 c6 : ℤ) (h : validInvariants c4 c6 = true) :
    (c4c6ToAi c4 c6).toCv.W.c₄ = c4 ∧ (c4c6ToAi c4 c6).toCv.W.c₆ = c6 ∧
    (c4c6ToAi c4 c6).toCv.W.Δ ≠ 0 ∧
    (c4c6ToAi c4 c6).b2 = (c4c6ToAi c4 c6).toCv.W.b₂ ∧
    (c4c6ToAi c4 c6).b4 = (c4c6ToAi c4 c6).toCv.W.b₄ ∧
    (c4c6ToAi c4 c6).b6 = (c4c6ToAi c4 c6).toCv.W.b₆ ∧
    (c4c6ToAi c4 c6).b8 = (c4c6ToAi c4 c6).toCv.W.b₈ ∧
    (c4c6ToAi c4 c6).a1 ∈ ({0, 1} : Set ℤ) ∧ (c4c6ToAi c4 c6).a3 ∈ ({0, 1} : Set ℤ) ∧
    (c4c6ToAi c4 c6).a2 ∈ ({-1, 0, 1} : Set ℤ) := by
  rw [validInvariants_iff] at h
  obtain ⟨h1, h2, h3, h4, h5, h6, h7, h8, h9⟩ := c4c6ToAi_spec h
  refine ⟨h1, h2, ?_, h3, h4, h5, h6, by simpa using h7, by simpa using h8, ?_⟩
  · intro h0
    apply h.1
    have hr := WeierstrassCurve.c_relation (c4c6ToAi c4 c6).toCv.W
    rw [h0, h1, h2, mul_zero] at hr
    exact hr.symm
  · simp only [Set.mem_insert_iff, Set.mem_singleton_iff]; omega

/-- C29: the result is the unique equation with these invariants and coefficients in the stated
ranges. -/
theorem C29_unique (E E' : Cv) (h4 : E.W.c₄ = E'.W.c₄) (h6 : E.W.c₆ = E'.W.c₆)
    (h1 : E.a1 ∈ ({0, 1} : Set ℤ)) (h1' : E'.a1 ∈ ({0, 1} : Set ℤ))
    (h3 : E.a3 ∈ ({0, 1} : Set ℤ)) (h3' : E'.a3 ∈ ({0, 1} : Set ℤ))
    (h2 : E.a2 ∈ ({-1, 0, 1} : Set ℤ)) (h2' : E'.a2 ∈ ({-1, 0, 1} : Set ℤ)) : E = E' := by
  obtain ⟨a1, a2, a3, a4, a6⟩ := E
  obtain ⟨e1, e2, e3, e4, e6⟩ := E'
  simp only [Set.mem_insert_iff, Set.mem_singleton_iff] at h1 h1' h2 h2' h3 h3'
  have hb4 : (Cv.W ⟨a1, a2, a3, a4, a6⟩).b₂ = (Cv.W ⟨e1, e2, e3, e4, e6⟩).b₂ → a1 = e1 ∧ a2 = e2 := by
    simp only [Cv.W, b₂]
    intro h
    rcases h1 with rfl | rfl <;> rcases h1' with rfl | rfl <;> norm_num at h ⊢ <;> omega
  simp only [c₄, c₆] at h4 h6
  -- b2 ≡ -c6 modulo 12 and the range determine b2
  have hb2 : (Cv.W ⟨a1, a2, a3, a4, a6⟩).b₂ = (Cv.W ⟨e1, e2, e3, e4, e6⟩).b₂ := by
    have hx : (Cv.W ⟨a1, a2, a3, a4, a6⟩).b₂ = a1 + 4 * a2 := by
      simp only [Cv.W, b₂]; rcases h1 with rfl | rfl <;> norm_num
    have hy : (Cv.W ⟨e1, e2, e3, e4, e6⟩).b₂ = e1 + 4 * e2 := by
      simp only [Cv.W, b₂]; rcases h1' with rfl | rfl <;> norm_num
    rw [hx, hy] at h6
    generalize (Cv.W ⟨a1, a2, a3, a4, a6⟩).b₄ = u at *
    generalize (Cv.W ⟨e1, e2, e3, e4, e6⟩).b₄ = v at *
    rw [hx, hy]
    rcases h1 with rfl | rfl <;> rcases h1' with rfl | rfl <;> rcases h2 with rfl | rfl | rfl <;>
      rcases h2' with rfl | rfl | rfl <;> norm_num at h6 ⊢ <;> omega
  obtain ⟨rfl, rfl⟩ := hb4 hb2
  rw [hb2] at h4 h6
  have q4 : (Cv.W ⟨a1, a2, a3, a4, a6⟩).b₄ = (Cv.W ⟨a1, a2, e3, e4, e6⟩).b₄ := by linarith
  rw [q4] at h6
  have q6 : (Cv.W ⟨a1, a2, a3, a4, a6⟩).b₆ = (Cv.W ⟨a1, a2, e3, e4, e6⟩).b₆ := by linarith
  simp only [Cv.W, b₄, b₆] at q4 q6
  have : a3 = e3 := by
    rcases h3 with rfl | rfl <;> rcases h3' with rfl | rfl <;> norm_num at q6 ⊢ <;> omega
  subst this
  have : a6 = e6 := by linarith
  have : a4 = e4 := by linarith
  subst_vars
  rfl

/-- C29: applied to the invariants of 11a1 -/
example : (c4c6ToAi 496 20008).toCv = ⟨0, -1, 1, -10, -20⟩ := by decide +kernel

/-- C29: the constructor from invariants agrees with the constructor from coefficients -/
theorem C29_constructor (c4 c6 : ℤ) (h : validInvariants c4 c6 = true) :
    ∃ E : Cv, Cd.ofC4C6 c4 c6 = Cd.ofAi E ∧ E.W.Δ ≠ 0 ∧ E.W.c₄ = c4 ∧ E.W.c₆ = c6 := by
  obtain ⟨h1, h2, h3, h4, h5, h6, h7, -⟩ := C29_c4c6_to_ai c4 c6 h
  refine ⟨(c4c6ToAi c4 c6).toCv, ?_, h3, h1, h2⟩
  have hd : (c4 * c4 * c4 - c6 * c6).fdiv 1728 = (c4c6ToAi c4 c6).toCv.W.Δ := by
    rw [← disc_spec, h1, h2]
  rw [Cd.ofAi_eq, if_neg h3, Cd.ofC4C6, if_pos h]
  simp only [hd, h1, h2, h4, h5, h6, h7, gt_iff_lt]
  simp only [show (0 < (c4c6ToAi c4 c6).toCv.W.Δ.sign) = (0 < (c4c6ToAi c4 c6).toCv.W.Δ) from
    propext Int.sign_pos_iff]

end Props

end Eclib.Curve
