import Verif.Marith.Model
import Verif.Arith.DivLemmas

/-! Helper lemmas for the multiprecision arithmetic functions. -/

namespace Eclib.Marith

open Eclib.Arith (val2)

theorem fmod_dvd_sub (a b : Int) : b ∣ a - a.fmod b :=
  ⟨a.fdiv b, by have := Int.fmod_add_mul_fdiv a b; linarith⟩

theorem fmod_eq_zero_iff (a b : Int) : a.fmod b = 0 ↔ b ∣ a :=
  ⟨Int.dvd_of_fmod_eq_zero, Int.fmod_eq_zero_of_dvd⟩

theorem posmod_eq (a b : Int) (hb : b ≠ 0) : posmod a b = a % |b| := by
  unfold posmod
  have hpos : 0 < |b| := abs_pos.mpr hb
  rw [← Int.abs_eq_natAbs]
  simp only
  rw [if_neg (by have := Int.fmod_nonneg_of_pos a hpos; omega),
    Int.fmod_eq_emod_of_nonneg _ hpos.le]

theorem posmod_pos (a b : Int) (hb : 0 < b) : posmod a b = a % b := by
  rw [posmod_eq a b hb.ne', abs_of_pos hb]

/-! ### divide_out, val -/

theorem divideOutLoop_spec (a d : Int) (c : ℕ) (ha : a ≠ 0) (hd : 1 < d.natAbs) :
    ∃ k, (divideOutLoop a d c).2 = c + k ∧ a = d ^ k * (divideOutLoop a d c).1 ∧
      ¬ d ∣ (divideOutLoop a d c).1 := by
  induction a, c using divideOutLoop.induct d with
  | case1 a c h ih =>
    rw [divideOutLoop, dif_pos h]
    obtain ⟨k, rfl⟩ := Int.dvd_of_fmod_eq_zero h.2
    have hd0 : d ≠ 0 := by rintro rfl; simp at hd
    rw [Int.mul_fdiv_cancel_left _ hd0] at ih ⊢
    obtain ⟨j, h1, h2, h3⟩ := ih (right_ne_zero_of_mul ha)
    exact ⟨j + 1, by omega, by conv_lhs => rw [h2]
                               ring, h3⟩
  | case2 a c h =>
    rw [divideOutLoop, dif_neg h]
    refine ⟨0, rfl, by simp, fun hda => h ⟨⟨ha, hd⟩, Int.fmod_eq_zero_of_dvd hda⟩⟩

theorem exact_of_factor {f n m : Int} {k : ℕ} (hf : f ≠ 0) (h : n = f ^ k * m) (hm : ¬ f ∣ m) :
    Spec.ExactPower f n k := by
  refine ⟨⟨m, h⟩, fun ⟨z, hz⟩ => hm ⟨z, ?_⟩⟩
  have : f ^ k * m = f ^ k * (f * z) := by rw [← h, hz]; ring
  exact mul_left_cancel₀ (pow_ne_zero _ hf) this

theorem exactPower_abs {f n : Int} {k : ℕ} : Spec.ExactPower (f.natAbs : Int) n k ↔
    Spec.ExactPower f n k := by
  unfold Spec.ExactPower
  rw [← Int.abs_eq_natAbs, ← abs_pow, ← abs_pow, abs_dvd, abs_dvd]

theorem val_spec (f n : Int) (hf : 2 ≤ |f|) (hn : n ≠ 0) : Spec.ExactPower f n (val f n) := by
  unfold val
  rw [Int.abs_eq_natAbs] at hf
  rw [if_neg hn]
  simp only
  rw [if_neg (by omega)]
  obtain ⟨k, h1, h2, h3⟩ := divideOutLoop_spec n f.natAbs 0 hn (by omega)
  rw [h1, zero_add, ← exactPower_abs]
  exact exact_of_factor (by omega) h2 h3

theorem exactPower_unique {f n : Int} {j k : ℕ} (hj : Spec.ExactPower f n j)
    (hk : Spec.ExactPower f n k) : j = k := by
  by_contra hne
  rcases lt_or_gt_of_ne hne with hlt | hlt
  · exact hj.2 ((pow_dvd_pow f (by omega)).trans hk.1)
  · exact hk.2 ((pow_dvd_pow f (by omega)).trans hj.1)

/-- The multiprecision `val` agrees with the `long` one. -/
theorem val_eq (f n : Int) : val f n = Arith.val f n := by
  by_cases hn : n = 0
  · subst hn; simp [val, Arith.val]
  · by_cases hf : 2 ≤ |f|
    · exact exactPower_unique (val_spec f n hf hn) (Arith.val_spec f n hf hn)
    · rw [Int.abs_eq_natAbs] at hf
      unfold val Arith.val
      simp only
      rw [if_neg hn, if_pos (by omega), if_pos (by omega)]

/-! ### isqrt -/

theorem newton_sq_le (n root : ℕ) (hr : 0 < root) : newton n root * newton n root ≤ n := by
  induction root using newton.induct n with
  | case1 root y h ih =>
    rw [newton, dif_pos h]
    by_cases hy : 0 < y
    · exact ih hy
    · have : (n / root + root) / 2 = 0 := Nat.eq_zero_of_not_pos hy
      rw [this, newton]
      simp
  | case2 root y h =>
    rw [newton, dif_neg h]
    have h' : ¬ ((n / root + root) / 2 < root) := h
    refine Nat.mul_le_of_le_div _ _ _ ?_
    generalize n / root = q at h' ⊢
    omega

theorem lt_newton_succ_sq (n root : ℕ) (hr : n < (root + 1) * (root + 1)) :
    n < (newton n root + 1) * (newton n root + 1) := by
  induction root using newton.induct n with
  | case1 root y h ih =>
    rw [newton, dif_pos h]
    apply ih
    have h0 : 0 < root := Nat.pos_of_ne_zero (by rintro rfl; exact Nat.not_lt_zero _ h)
    have h1 : n < root * (n / root + 1) := Nat.lt_mul_div_succ n h0
    have hy : y = (n / root + root) / 2 := rfl
    generalize n / root = q at h1 hy
    have h4 : root + (q + 1) ≤ 2 * (y + 1) := by omega
    by_contra hc
    push Not at hc
    have h3 : (y + 1) * (y + 1) < root * (q + 1) := lt_of_le_of_lt hc h1
    zify at h3 h4
    nlinarith [sq_nonneg ((root : ℤ) - (q + 1))]
  | case2 root y h => rw [newton, dif_neg h]; exact hr

theorem sqrtnr_root (n : ℕ) (_hn : 0 < n) : (sqrtnr n).2 = Nat.sqrt n := by
  unfold sqrtnr
  simp only
  rw [Nat.eq_sqrt]
  refine ⟨newton_sq_le _ _ (by positivity), lt_newton_succ_sq _ _ ?_⟩
  have h1 : n < 2 ^ (Nat.log2 n + 1) := Nat.lt_log2_self
  have h2 : 2 ^ (Nat.log2 n + 1) ≤ 2 ^ (1 + Nat.log2 n / 2) * 2 ^ (1 + Nat.log2 n / 2) := by
    rw [← pow_add]
    exact Nat.pow_le_pow_right (by norm_num) (by omega)
  have h3 := Nat.mul_le_mul (Nat.le_succ (2 ^ (1 + Nat.log2 n / 2)))
    (Nat.le_succ (2 ^ (1 + Nat.log2 n / 2)))
  exact h1.trans_le (h2.trans h3)

theorem stripTwos_spec (n t : ℕ) (hn : n ≠ 0) :
    ∃ k, (stripTwos n t).2 = t + k ∧ n = 2 ^ k * (stripTwos n t).1 ∧
      (stripTwos n t).1 % 2 = 1 := by
  induction n, t using stripTwos.induct with
  | case1 n t h ih =>
    rw [stripTwos, dif_pos h]
    obtain ⟨k, h1, h2, h3⟩ := ih (by omega)
    refine ⟨k + 1, by omega, ?_, h3⟩
    have : n = 2 * (n / 2) := by omega
    rw [pow_succ, mul_comm (2 ^ k) 2, mul_assoc, ← h2]
    exact this
  | case2 n t h =>
    rw [stripTwos, dif_neg h]
    exact ⟨0, rfl, by simp, by omega⟩

theorem table_sq (tbl : List ℕ) (m : ℕ) (hm : 0 < m)
    (h : ∀ i < m, tbl.getD ((i * i) % m) 0 ≠ 0) (M r : ℕ) (hM : m ∣ M) :
    tbl.getD (((r * r) % M) % m) 0 ≠ 0 := by
  rw [Nat.mod_mod_of_dvd _ hM]
  have := h (r % m) (Nat.mod_lt _ hm)
  rwa [← Nat.mul_mod] at this

theorem isqrt_of_sq (r : ℕ) : isqrt ((r * r : ℕ) : Int) = (true, r) := by
  unfold isqrt
  by_cases hr : r = 0
  · subst hr; simp
  have hpos : 0 < r * r := by positivity
  rw [if_neg (by omega), if_neg (by omega)]
  simp only [Int.toNat_natCast]
  obtain ⟨k, h1, h2, h3⟩ := stripTwos_spec (r * r) 0 hpos.ne'
  rw [zero_add] at h1
  -- r = 2^j * odd
  have hv := Arith.val2_mul r hr
  have ho := Arith.val2_odd r hr
  set j := val2 r
  set m := r / 2 ^ j
  have hk : k = 2 * j ∧ (stripTwos (r * r) 0).1 = m * m := by
    have h4 : 2 ^ k * (stripTwos (r * r) 0).1 = 2 ^ (2 * j) * (m * m) := by
      rw [← h2]; conv_lhs => rw [← hv]
      ring
    have hodd : (m * m) % 2 = 1 := by
      have := ho.mul ho; exact Nat.odd_iff.mp this
    have aux : ∀ (a b x y : ℕ), x % 2 = 1 → a < b → 2 ^ a * x = 2 ^ b * y → False := by
      intro a b x y hx hab he
      obtain ⟨c, rfl⟩ := Nat.exists_eq_add_of_lt hab
      have : x = 2 ^ (c + 1) * y := by
        have : 2 ^ a * x = 2 ^ a * (2 ^ (c + 1) * y) := by rw [he]; ring
        exact Nat.eq_of_mul_eq_mul_left (by positivity) this
      rw [pow_succ] at this
      have : x = 2 * (2 ^ c * y) := by rw [this]; ring
      omega
    have hkj : k = 2 * j := by
      rcases lt_trichotomy k (2 * j) with h | h | h
      · exact (aux _ _ _ _ h3 h h4).elim
      · exact h
      · exact (aux _ _ _ _ hodd h h4.symm).elim
    refine ⟨hkj, ?_⟩
    rw [hkj] at h4
    exact Nat.eq_of_mul_eq_mul_left (by positivity) h4
  have hm0 : 0 < m := ho.pos
  rw [h1, hk.1, hk.2]
  rw [if_neg (by omega)]
  rw [if_neg (table_sq carresmod64 64 (by norm_num) (by decide +kernel) _ _ (by norm_num)),
    if_neg (table_sq carresmod63 63 (by norm_num) (by decide +kernel) _ _ (by norm_num)),
    if_neg (table_sq carresmod65 65 (by norm_num) (by decide +kernel) _ _ (by norm_num)),
    if_neg (table_sq carresmod11 11 (by norm_num) (by decide +kernel) _ _ (by norm_num)),
    if_neg (table_sq carresmod17 17 (by norm_num) (by decide +kernel) _ _ (by norm_num)),
    if_neg (table_sq carresmod19 19 (by norm_num) (by decide +kernel) _ _ (by norm_num))]
  have hroot := sqrtnr_root (m * m) (by positivity)
  rw [Nat.sqrt_eq] at hroot
  have hflag : (sqrtnr (m * m)).1 = true := by
    have : (sqrtnr (m * m)).1 = ((sqrtnr (m * m)).2 * (sqrtnr (m * m)).2 == m * m) := rfl
    rw [this, hroot]; simp
  rw [if_pos hflag, hroot]
  have : 2 * j / 2 = j := by omega
  rw [this, mul_comm, hv]

theorem isqrt_sound (n : Int) (h : (isqrt n).1 = true) :
    n = ((isqrt n).2 : Int) * ((isqrt n).2 : Int) := by
  unfold isqrt at h ⊢
  by_cases h0 : n < 0
  · rw [if_pos h0] at h; simp at h
  rw [if_neg h0] at h ⊢
  by_cases h1 : n = 0
  · rw [if_pos h1]; simp [h1]
  rw [if_neg h1] at h ⊢
  have hn : n.toNat ≠ 0 := by omega
  obtain ⟨k, e1, e2, e3⟩ := stripTwos_spec n.toNat 0 hn
  rw [zero_add] at e1
  simp only [e1] at h ⊢
  split_ifs at h ⊢ with g1 g2 g3 g4 g5 g6 g7 g8
  · simp only
    have hroot := sqrtnr_root (stripTwos n.toNat 0).1 (by omega)
    have hf : (sqrtnr (stripTwos n.toNat 0).1).2 * (sqrtnr (stripTwos n.toNat 0).1).2 =
        (stripTwos n.toNat 0).1 := by
      have : (sqrtnr (stripTwos n.toNat 0).1).1 =
        ((sqrtnr (stripTwos n.toNat 0).1).2 * (sqrtnr (stripTwos n.toNat 0).1).2 ==
          (stripTwos n.toNat 0).1) := rfl
      rw [this] at g8
      simpa using g8
    have hk : k = 2 * (k / 2) := by omega
    have : n.toNat = ((sqrtnr (stripTwos n.toNat 0).1).2 * 2 ^ (k / 2)) *
        ((sqrtnr (stripTwos n.toNat 0).1).2 * 2 ^ (k / 2)) := by
      conv_lhs => rw [e2, ← hf, hk]
      ring
    have hz : n = (n.toNat : Int) := by omega
    rw [hz]
    exact_mod_cast this

/-! ### Kronecker and Legendre symbols -/

theorem bit8_eq (x : Int) : bit8 x = Arith.bit8 x := by
  unfold bit8 Arith.bit8
  rw [posmod_pos _ _ (by norm_num)]
  rfl

theorem kronLoop_eq (x1 : ℕ) : ∀ (y : ℕ) (s : Int), Odd y →
    kronLoop x1 y s = Arith.kronLoop x1 y s := by
  induction x1 using Nat.strong_induction_on with
  | _ x1 ih =>
    intro y s hy
    rw [kronLoop, Arith.kronLoop]
    by_cases h : x1 = 0
    · simp [h]
    · have hx : x1 ≠ 0 := h
      simp only [hx, ne_eq, not_false_eq_true, dif_pos]
      have hodd := Arith.val2_odd x1 hx
      have h1 : ∀ z : ℕ, Odd z → (posmod (z : Int) 4 = 3 ↔ z / 2 % 2 = 1) := by
        intro z hz
        rw [posmod_pos _ _ (by norm_num)]
        have := Nat.odd_iff.mp hz
        omega
      rw [ih]
      · congr 1
        have h3 := h1 y hy
        have h4 := h1 _ hodd
        rw [bit8_eq]
        have h5 : (val2 x1 % 2 = 1 ∧ Arith.bit8 (y : Int) = true) ↔
            (val2 x1 ≠ 0 ∧ val2 x1 % 2 = 1 ∧ Arith.bit8 (y : Int) = true) := by
          constructor
          · rintro ⟨a, b⟩; exact ⟨by omega, a, b⟩
          · rintro ⟨_, a, b⟩; exact ⟨a, b⟩
        rw [if_congr h5 rfl rfl, if_congr (and_congr h3 h4) rfl rfl]
      · have hp : 0 < x1 / 2 ^ val2 x1 := hodd.pos
        exact (Nat.mod_lt _ hp).trans_le (Nat.div_le_self _ _)
      · exact hodd

theorem kronecker_eq (x y : Int) : kronecker x y = Arith.kronecker x y := by
  unfold kronecker Arith.kronecker
  by_cases hy : y = 0
  · simp [hy]
  · simp only [hy, if_false]
    have hy' : y.natAbs ≠ 0 := by omega
    have hodd := Arith.val2_odd y.natAbs hy'
    have hcomm : (if val2 y.natAbs ≠ 0 then y.natAbs / 2 ^ val2 y.natAbs else y.natAbs) =
        y.natAbs / 2 ^ val2 y.natAbs := by
      split_ifs with h
      · rfl
      · push Not at h; rw [h]; simp
    rw [hcomm]
    have hp : Arith.posmod x ((y.natAbs / 2 ^ val2 y.natAbs : ℕ) : Int) =
        posmod x ((y.natAbs / 2 ^ val2 y.natAbs : ℕ) : Int) := by
      have h0 : (0 : Int) < ((y.natAbs / 2 ^ val2 y.natAbs : ℕ) : Int) := by
        exact_mod_cast hodd.pos
      rw [posmod_pos _ _ h0, Arith.posmod_eq_emod _ _ h0]
    have hemod : x.emod 2 = x % 2 := rfl
    rw [hemod]
    by_cases h1 : val2 y.natAbs ≠ 0 ∧ x % 2 = 0
    · rw [if_pos h1, if_pos h1]
    · rw [if_neg h1, if_neg h1, kronLoop_eq _ _ _ hodd, ← hp, bit8_eq]
      rfl

theorem chi4_eq (b : ℕ) : chi4 b = Arith.chi4 b := by
  unfold chi4 Arith.chi4
  rw [posmod_pos _ _ (by norm_num), Arith.posmod_eq_emod _ _ (by norm_num)]
  have : (b : Int) % 4 = 0 ∨ (b : Int) % 4 = 1 ∨ (b : Int) % 4 = 2 ∨ (b : Int) % 4 = 3 := by omega
  rcases this with h | h | h | h <;> rw [h] <;> rfl

theorem chi2_eq (b : ℕ) : chi2 b = Arith.chi2 b := by
  unfold chi2 Arith.chi2
  rw [posmod_pos _ _ (by norm_num), Arith.posmod_eq_emod _ _ (by norm_num)]
  have : (b : Int) % 8 = 0 ∨ (b : Int) % 8 = 1 ∨ (b : Int) % 8 = 2 ∨ (b : Int) % 8 = 3 ∨
    (b : Int) % 8 = 4 ∨ (b : Int) % 8 = 5 ∨ (b : Int) % 8 = 6 ∨ (b : Int) % 8 = 7 := by omega
  rcases this with h | h | h | h | h | h | h | h <;> rw [h] <;> rfl

theorem hilbert2_eq (a b : Int) : hilbert2 a b = Arith.hilbert2 a b := by
  unfold hilbert2 Arith.hilbert2
  rw [posmod_pos _ _ (by norm_num), Arith.posmod_eq_emod _ _ (by norm_num),
    posmod_pos _ _ (by norm_num), Arith.posmod_eq_emod _ _ (by norm_num)]
  have h1 : a % 4 = 0 ∨ a % 4 = 1 ∨ a % 4 = 2 ∨ a % 4 = 3 := by omega
  have h2 : b % 4 = 0 ∨ b % 4 = 1 ∨ b % 4 = 2 ∨ b % 4 = 3 := by omega
  rcases h1 with h | h | h | h <;> rcases h2 with h' | h' | h' | h' <;> rw [h, h'] <;> rfl

theorem strip4_eq (x : Int) (hx : 0 ≤ x) : strip4 x = Arith.strip4 x := by
  induction x using strip4.induct with
  | case1 x h ih =>
    have h' : x ≠ 0 ∧ x.tmod 4 = 0 :=
      ⟨h.1, by rw [← Int.fmod_eq_tmod_of_nonneg hx (by norm_num)]; exact h.2⟩
    rw [strip4, dif_pos h, Arith.strip4, dif_pos h',
      ← Int.fdiv_eq_tdiv_of_nonneg hx (by norm_num)]
    exact ih (Int.fdiv_nonneg hx (by norm_num))
  | case2 x h =>
    have h' : ¬ (x ≠ 0 ∧ x.tmod 4 = 0) := by
      rwa [← Int.fmod_eq_tmod_of_nonneg hx (by norm_num)]
    rw [strip4, dif_neg h, Arith.strip4, dif_neg h']

theorem strip4_nonneg (x : Int) (hx : 0 ≤ x) : 0 ≤ Arith.strip4 x := by
  rcases hx.lt_or_eq with h | h
  · exact (Arith.strip4_spec (b := 1) (by decide) x h).1.le
  · subst h; rw [Arith.strip4]; simp

theorem legBody_eq (a : Int) (b : ℕ) (ans : Int) : legBody a b ans = Arith.legBody a b ans := by
  have key : ∀ x : Int, 0 ≤ x → ∀ ans,
      ((if (strip4 x).fmod 2 = 0 then ((strip4 x).fdiv 2, ans * chi2 b) else (strip4 x, ans)) :
        Int × Int) =
      (if (Arith.strip4 x).tmod 2 = 0 then ((Arith.strip4 x).tdiv 2, ans * Arith.chi2 b)
        else (Arith.strip4 x, ans)) := by
    intro x hx ans
    have h0 := strip4_nonneg x hx
    rw [strip4_eq x hx, Int.fmod_eq_tmod_of_nonneg h0 (by norm_num),
      Int.fdiv_eq_tdiv_of_nonneg h0 (by norm_num), chi2_eq]
  unfold legBody Arith.legBody
  simp only [hilbert2_eq, chi4_eq]
  by_cases h : a < 0
  · simp only [h, if_true]
    rw [key (-a) (by omega)]
  · simp only [h, if_false]
    rw [key a (by omega)]

theorem legLoop_spec (b : ℕ) : ∀ (fuel : ℕ) (a ans : Int), b ≤ fuel → Odd b → Int.gcd a b = 1 →
    legLoop fuel a b ans = some (ans * jacobiSym a b) := by
  induction b using Nat.strong_induction_on with
  | _ b ih =>
    intro fuel a ans hf hb hg
    by_cases h1 : b = 1
    · subst h1
      cases fuel <;> simp [legLoop]
    · have hb1 : 1 < b := by have := hb.pos; omega
      cases fuel with
      | zero => omega
      | succ fuel =>
        rw [legLoop, if_pos (by exact_mod_cast hb1)]
        have hnb : (0 : Int) ≤ (b : Int) := by omega
        have hfm : a.fmod b = a % b := Int.fmod_eq_emod_of_nonneg _ hnb
        have hg1 : Int.gcd (a % b) b = 1 := by
          rw [← hg, Int.gcd_emod]
        have hne : a % (b : Int) ≠ 0 := by
          intro h0; rw [h0] at hg1; simp at hg1; omega
        simp only [hfm, hne, if_false]
        rw [legBody_eq]
        obtain ⟨m, hm, hd, s, he, hj⟩ := Arith.legBody_spec hb (a % b) ans hne
        have hle : m < b := by
          have hpos : 0 < a % (b : Int) := lt_of_le_of_ne (Int.emod_nonneg _ (by omega)) (Ne.symm hne)
          have h2 := Int.le_of_dvd hpos hd
          have h3 := Int.emod_lt_of_pos a (show (0 : Int) < b by omega)
          omega
        have hgm : Int.gcd b m = 1 := by
          have h2 : Int.gcd b m ∣ Int.gcd (a % b) b := by
            rw [Int.gcd_comm (a % b)]
            exact Int.gcd_dvd_gcd_of_dvd_right _ hd
          rw [hg1] at h2
          exact Nat.dvd_one.mp h2
        rw [he]
        simp only
        rw [ih m hle fuel b (ans * s) (by omega) hm hgm, mul_assoc, ← hj]
        congr 2
        rw [← jacobiSym.mod_left]

theorem legendre_eq (a : Int) (b : ℕ) (hb : Odd b) :
    legendre a b = some (jacobiSym a b) := by
  unfold legendre
  have h2 : (b : Int).fmod 2 ≠ 0 := by
    rw [Int.fmod_eq_emod_of_nonneg _ (by norm_num)]
    have := Nat.odd_iff.mp hb
    omega
  by_cases hg : Int.gcd a b = 1
  · rw [if_pos ⟨hg, h2⟩]
    unfold leg
    rw [legLoop_spec b _ a 1 (by simp) hb hg, one_mul]
  · rw [if_neg (fun h => hg h.1)]
    congr 1
    symm
    have : NeZero b := ⟨hb.pos.ne'⟩
    exact jacobiSym.eq_zero_iff_not_coprime.mpr hg

end Eclib.Marith
