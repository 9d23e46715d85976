import Verif.Arith.Model
import Verif.Arith.Spec
import Mathlib.Tactic.NormNum
import Mathlib.Tactic.IntervalCases

namespace Eclib.Arith

/-! ## gcd, bezout -/

theorem gcdLoop_eq (a b : Int) : gcdLoop a b = (Int.gcd a b : Int) := by
  induction a, b using gcdLoop.induct with
  | case1 a => rw [gcdLoop]; simp
  | case2 a b h ih =>
    rw [gcdLoop, dif_neg h, ih]
    congr 1
    rw [Int.gcd_comm a b, Int.gcd_def, Int.gcd_def, Int.natAbs_tmod, Nat.gcd_comm]
    rw [← Nat.gcd_rec, Nat.gcd_comm]

theorem gcd_eq (a b : Int) : gcd a b = (Int.gcd a b : Int) := by
  unfold gcd
  split_ifs with h1 h2
  · rcases h1 with rfl | rfl <;> simp
  · subst h2; simp
  · exact gcdLoop_eq a b

theorem step_b (s : BezoutState) : s.step.b = s.a.tmod s.b := by
  simp only [BezoutState.step]
  have := Int.tmod_add_mul_tdiv s.a s.b
  linarith [mul_comm s.b (s.a.tdiv s.b)]

theorem run_a (s : BezoutState) : |s.run.a| = (Int.gcd s.a s.b : Int) := by
  induction s using BezoutState.run.induct with
  | case1 s h => rw [BezoutState.run, dif_pos h, h]; simp
  | case2 s h ih =>
    rw [BezoutState.run, dif_neg h, ih]
    rw [step_b]
    congr 1
    show Int.gcd s.b (s.a.tmod s.b) = _
    rw [Int.gcd_comm s.a s.b, Int.gcd_def, Int.gcd_def, Int.natAbs_tmod, Nat.gcd_comm]
    rw [← Nat.gcd_rec, Nat.gcd_comm]

/-- Loop invariant of `bezout`. -/
def BezoutState.Inv (aa bb : Int) (s : BezoutState) : Prop :=
  aa * s.oldx + bb * s.oldy = s.a ∧ aa * s.x + bb * s.y = s.b

theorem step_inv {aa bb : Int} {s : BezoutState} (h : s.Inv aa bb) : s.step.Inv aa bb := by
  obtain ⟨h1, h2⟩ := h
  refine ⟨h2, ?_⟩
  simp only [BezoutState.step]
  rw [← h1, ← h2]; ring

theorem run_inv {aa bb : Int} (s : BezoutState) (h : s.Inv aa bb) : s.run.Inv aa bb := by
  induction s using BezoutState.run.induct with
  | case1 s h' => rw [BezoutState.run, dif_pos h']; exact h
  | case2 s h' ih => rw [BezoutState.run, dif_neg h']; exact ih (step_inv h)

theorem bezout_fst (a b : Int) : (bezout a b).1 = (Int.gcd a b : Int) := by
  have h : |(BezoutState.init a b).run.a| = (Int.gcd a b : Int) := run_a (BezoutState.init a b)
  unfold bezout
  simp only
  split_ifs with h1
  · rw [← h, abs_of_neg h1]
  · rw [← h, abs_of_nonneg (not_lt.mp h1)]

theorem bezout_identity (a b : Int) :
    a * (bezout a b).2.1 + b * (bezout a b).2.2 = (bezout a b).1 := by
  have h := (run_inv (BezoutState.init a b) (aa := a) (bb := b)
    (by simp [BezoutState.Inv, BezoutState.init])).1
  unfold bezout
  simp only
  split_ifs with h1 <;> simp only <;> linarith

/-! ## mod, posmod, rounded_division -/

theorem tmod_dvd_sub (a b : Int) : b ∣ a - a.tmod b :=
  ⟨a.tdiv b, by have := Int.tmod_add_mul_tdiv a b; linarith⟩

/-! ## val -/

theorem valLoop_spec (f n e : Nat) (hf : 1 < f) (hn : 0 < n) :
    ∃ k, valLoop f n e = e + k ∧ f ^ k ∣ n ∧ ¬ f ^ (k + 1) ∣ n := by
  induction n, e using valLoop.induct f with
  | case1 n e h ih =>
    have hd : f ∣ n := Nat.dvd_of_mod_eq_zero h.2.2
    obtain ⟨m, rfl⟩ := hd
    have hf0 : 0 < f := by omega
    rw [Nat.mul_div_cancel_left m hf0] at ih
    have hm : 0 < m := Nat.pos_of_mul_pos_left hn
    obtain ⟨k, hk, h1, h2⟩ := ih hm
    refine ⟨k + 1, ?_, ?_, ?_⟩
    · rw [valLoop, dif_pos h, Nat.mul_div_cancel_left m hf0, hk]; omega
    · rw [pow_succ, mul_comm]; exact Nat.mul_dvd_mul_left f h1
    · rw [pow_succ, mul_comm]
      intro hc
      exact h2 ((Nat.mul_dvd_mul_iff_left hf0).mp hc)
  | case2 n e h =>
    refine ⟨0, ?_, by simp, ?_⟩
    · rw [valLoop, dif_neg h]; rfl
    · intro hc
      rw [zero_add, pow_one] at hc
      exact h ⟨hf, hn, Nat.mod_eq_zero_of_dvd hc⟩

/-! ## the quadratic characters -/

theorem posmod_eq_emod (a b : Int) (hb : 0 < b) : posmod a b = a % b := by
  unfold posmod
  have h1 := Int.tmod_add_mul_tdiv a b
  have habs : (a.tmod b).natAbs < b.natAbs := by
    rw [Int.natAbs_tmod]; exact Nat.mod_lt _ (by omega)
  simp only
  split_ifs with h
  · have : a % b = (a.tmod b + b) % b := by
      conv_lhs => rw [← h1]
      rw [Int.add_mul_emod_self_left, Int.add_emod_right]
    rw [this, Int.emod_eq_of_lt (by omega) (by omega)]
  · have : a % b = (a.tmod b) % b := by
      conv_lhs => rw [← h1]
      rw [Int.add_mul_emod_self_left]
    rw [this, Int.emod_eq_of_lt (by omega) (by omega)]

theorem chi4_eq (b : ℕ) : chi4 b = ZMod.χ₄ (b : ZMod 4) := by
  rw [ZMod.χ₄_nat_mod_four, chi4, posmod_eq_emod _ _ (by norm_num)]
  have h : ((b : Int) % 4) = ((b % 4 : ℕ) : Int) := by simp
  rw [h]
  have : b % 4 < 4 := Nat.mod_lt _ (by norm_num)
  interval_cases b % 4 <;> decide

theorem chi2_eq (b : ℕ) : chi2 b = ZMod.χ₈ (b : ZMod 8) := by
  rw [ZMod.χ₈_nat_mod_eight, chi2, posmod_eq_emod _ _ (by norm_num)]
  have h : ((b : Int) % 8) = ((b % 8 : ℕ) : Int) := by simp
  rw [h]
  have : b % 8 < 8 := Nat.mod_lt _ (by norm_num)
  interval_cases b % 8 <;> decide

theorem recip_hilbert2 {a b : ℕ} (ha : Odd a) (hb : Odd b) :
    jacobiSym a b = hilbert2 a b * jacobiSym b a := by
  have ha4 : a % 4 = 1 ∨ a % 4 = 3 := by
    have := Nat.odd_iff.mp ha; omega
  have hb4 : b % 4 = 1 ∨ b % 4 = 3 := by
    have := Nat.odd_iff.mp hb; omega
  have hposa : posmod (a : Int) 4 = ((a % 4 : ℕ) : Int) := by
    rw [posmod_eq_emod _ _ (by norm_num)]; simp
  have hposb : posmod (b : Int) 4 = ((b % 4 : ℕ) : Int) := by
    rw [posmod_eq_emod _ _ (by norm_num)]; simp
  unfold hilbert2
  rw [hposa, hposb]
  rcases ha4 with h1 | h1
  · rw [jacobiSym.quadratic_reciprocity_one_mod_four h1 hb]
    rcases hb4 with h2 | h2 <;> rw [h1, h2] <;> simp
  · rcases hb4 with h2 | h2
    · rw [← jacobiSym.quadratic_reciprocity_one_mod_four h2 ha, h1, h2]; simp
    · rw [jacobiSym.quadratic_reciprocity_three_mod_four h1 h2, h1, h2]; simp

theorem jacobi_four_mul {b : ℕ} (hb : Odd b) (x : Int) : jacobiSym (4 * x) b = jacobiSym x b := by
  have h2 : Int.gcd 2 b = 1 := by
    rw [Int.gcd_def]
    simpa using (Nat.coprime_two_left.mpr hb)
  rw [jacobiSym.mul_left, show (4 : Int) = 2 ^ 2 by norm_num, jacobiSym.sq_one' h2, one_mul]

theorem strip4_spec {b : ℕ} (hb : Odd b) (x : Int) (hx : 0 < x) :
    0 < strip4 x ∧ (strip4 x).tmod 4 ≠ 0 ∧ strip4 x ∣ x ∧
      jacobiSym (strip4 x) b = jacobiSym x b := by
  induction x using strip4.induct with
  | case1 x h ih =>
    obtain ⟨y, rfl⟩ := Int.dvd_of_tmod_eq_zero h.2
    rw [strip4, dif_pos h]
    rw [Int.mul_tdiv_cancel_left _ (by norm_num)] at ih ⊢
    obtain ⟨h1, h2, h3, h4⟩ := ih (by omega)
    exact ⟨h1, h2, h3.trans (Dvd.intro_left 4 rfl), by rw [h4, jacobi_four_mul hb]⟩
  | case2 x h =>
    rw [strip4, dif_neg h]
    exact ⟨hx, fun hc => h ⟨hx.ne', hc⟩, dvd_rfl, rfl⟩

theorem legBody_spec {b : ℕ} (hb : Odd b) (a ans : Int) (ha : a ≠ 0) :
    ∃ m : ℕ, Odd m ∧ (m : Int) ∣ a ∧
      ∃ s, legBody a b ans = ((m : Int), ans * s) ∧ jacobiSym a b = s * jacobiSym b m := by
  -- first the sign
  have key : ∀ (x ans : Int), 0 < x → ∃ m : ℕ, Odd m ∧ (m : Int) ∣ x ∧
      ∃ s, (let aa := strip4 x
            let (aa, ans) := if aa.tmod 2 = 0 then (aa.tdiv 2, ans * chi2 b) else (aa, ans)
            (aa, ans * hilbert2 aa b)) = ((m : Int), ans * s) ∧
        jacobiSym x b = s * jacobiSym b m := by
    intro x ans hx
    obtain ⟨h1, h2, h3, h4⟩ := strip4_spec hb x hx
    by_cases he : (strip4 x).tmod 2 = 0
    · obtain ⟨y, hy⟩ := Int.dvd_of_tmod_eq_zero he
      have hy0 : 0 < y := by omega
      obtain ⟨m, rfl⟩ := Int.eq_ofNat_of_zero_le hy0.le
      have hmodd : Odd m := by
        rw [Nat.odd_iff]
        by_contra hc
        apply h2
        rw [hy]
        apply Int.tmod_eq_zero_of_dvd
        omega
      refine ⟨m, hmodd, (Dvd.intro_left 2 hy.symm).trans h3, chi2 b * hilbert2 m b, ?_, ?_⟩
      · simp only [he, if_true]
        rw [hy, Int.mul_tdiv_cancel_left _ (by norm_num)]
        simp [mul_assoc]
      · rw [← h4, hy, jacobiSym.mul_left, jacobiSym.at_two hb, chi2_eq, recip_hilbert2 hmodd hb]
        ring
    · obtain ⟨m, hm⟩ := Int.eq_ofNat_of_zero_le h1.le
      have hmodd : Odd m := by
        rw [Nat.odd_iff]
        by_contra hc
        apply he
        rw [hm]
        apply Int.tmod_eq_zero_of_dvd
        omega
      refine ⟨m, hmodd, hm ▸ h3, hilbert2 m b, ?_, ?_⟩
      · simp only [he, if_false]
        rw [hm]
      · rw [← h4, hm]
        exact recip_hilbert2 hmodd hb
  by_cases hneg : a < 0
  · obtain ⟨m, hm, hd, s, h1, h2⟩ := key (-a) (ans * chi4 b) (by omega)
    refine ⟨m, hm, (Int.dvd_neg.mp hd), chi4 b * s, ?_, ?_⟩
    · unfold legBody
      simp only [hneg, if_true]
      simp only at h1
      rw [h1]
      simp only [mul_assoc]
    · have : jacobiSym a b = jacobiSym (-1) b * jacobiSym (-a) b := by
        rw [← jacobiSym.mul_left]; simp
      rw [this, h2, jacobiSym.at_neg_one hb, chi4_eq]; ring
  · obtain ⟨m, hm, hd, s, h1, h2⟩ := key a ans (by omega)
    refine ⟨m, hm, hd, s, ?_, h2⟩
    unfold legBody
    simp only [hneg, if_false]
    simp only at h1
    rw [h1]

theorem jacobi_tmod (a : Int) (b : ℕ) : jacobiSym (a.tmod b) b = jacobiSym a b := by
  rw [jacobiSym.mod_left (a.tmod b), jacobiSym.mod_left a]
  congr 1
  have h := Int.tmod_add_mul_tdiv a b
  conv_rhs => rw [← h]
  rw [Int.add_mul_emod_self_left]

theorem legLoop_spec (b : ℕ) : ∀ (a ans : Int), Odd b → Int.gcd a b = 1 →
    legLoop a b ans = some (ans * jacobiSym a b) := by
  induction b using Nat.strong_induction_on with
  | _ b ih =>
    intro a ans hb hg
    rw [legLoop]
    by_cases h : (b : Int) > 1
    · have hg1 : Int.gcd (a.tmod b) b = 1 := by
        have h1 := Int.tmod_add_mul_tdiv a b
        rw [← h1] at hg
        simpa using hg
      have hne : a.tmod b ≠ 0 := by
        intro h0
        rw [h0] at hg1
        simp at hg1
        omega
      rw [dif_pos h]
      simp only [hne, if_false]
      obtain ⟨m, hm, hd, s, h1, h2⟩ := legBody_spec hb (a.tmod b) ans hne
      rw [h1]
      have hlt : m < b := by
        have h3 : m ≤ (a.tmod b).natAbs := by
          have := Int.natAbs_dvd_natAbs.mpr hd
          simpa using Nat.le_of_dvd (Int.natAbs_pos.mpr hne) this
        rw [Int.natAbs_tmod] at h3
        have : a.natAbs % (b : Int).natAbs < (b : Int).natAbs := Nat.mod_lt _ (by omega)
        simp at this h3
        omega
      have hg2 : Int.gcd (b : Int) (m : Int) = 1 := by
        apply Nat.eq_one_of_dvd_one
        rw [← hg1, Int.gcd_comm (a.tmod b)]
        exact Int.gcd_dvd_gcd_of_dvd_right _ hd
      rw [ih m hlt _ _ hm hg2]
      rw [← jacobi_tmod a b, h2, mul_assoc]
    · have hb1 : b = 1 := by
        have := hb.pos; omega
      rw [dif_neg h, hb1]
      simp

theorem val2_eq (z : ℕ) (hz : z ≠ 0) : val2 z = padicValNat 2 z := by
  induction z using val2.induct with
  | case1 z h ih =>
    rw [val2, dif_pos h]
    obtain ⟨k, rfl⟩ := Nat.dvd_of_mod_eq_zero h.2
    have hk : k ≠ 0 := by rintro rfl; exact hz rfl
    rw [Nat.mul_div_cancel_left k (by decide)] at ih ⊢
    rw [ih hk, padicValNat.mul (by decide) hk]
    simp [add_comm]
  | case2 z h =>
    rw [val2, dif_neg h]
    symm
    apply padicValNat.eq_zero_of_not_dvd
    intro hd
    exact h ⟨hz, Nat.mod_eq_zero_of_dvd hd⟩

theorem val2_mul (z : ℕ) (hz : z ≠ 0) : 2 ^ val2 z * (z / 2 ^ val2 z) = z := by
  rw [val2_eq z hz]
  exact Nat.mul_div_cancel' pow_padicValNat_dvd

theorem val2_odd (z : ℕ) (hz : z ≠ 0) : Odd (z / 2 ^ val2 z) := by
  rw [val2_eq z hz, Nat.odd_iff]
  by_contra hc
  have h2 : 2 ∣ z / 2 ^ padicValNat 2 z := by omega
  have hd : 2 ^ (padicValNat 2 z + 1) ∣ z := by
    obtain ⟨k, hk⟩ := h2
    refine ⟨k, ?_⟩
    have := Nat.mul_div_cancel' (pow_padicValNat_dvd (p := 2) (n := z))
    rw [hk] at this
    rw [pow_succ, mul_assoc]; exact this.symm
  exact pow_succ_padicValNat_not_dvd hz hd

theorem chi8_bit8 (x : Int) (hx : Odd x) :
    ZMod.χ₈ (x : ZMod 8) = if bit8 x then -1 else 1 := by
  rw [ZMod.χ₈_int_mod_eight]
  unfold bit8
  have h2 := Int.odd_iff.mp hx
  have hx' : x % 8 = 1 ∨ x % 8 = 3 ∨ x % 8 = 5 ∨ x % 8 = 7 := by omega
  change ZMod.χ₈ ((x % 8 : Int) : ZMod 8) = if ((x % 8 - 4).natAbs == 1) = true then -1 else 1
  rcases hx' with h | h | h | h <;> rw [h] <;> decide

theorem pow_ite_neg (r : ℕ) (c : Prop) [Decidable c] (s : Int) :
    (if r ≠ 0 ∧ r % 2 = 1 ∧ c then -s else s) = s * (if c then -1 else 1 : Int) ^ r := by
  by_cases hc : c
  · rcases Nat.even_or_odd r with h | h
    · have : r % 2 = 0 := Nat.even_iff.mp h
      simp [hc, h.neg_one_pow, this]
    · have h1 : r % 2 = 1 := Nat.odd_iff.mp h
      have h0 : r ≠ 0 := by rintro rfl; simp at h1
      simp [hc, h.neg_one_pow, h1, h0]
  · simp [hc]

theorem recip_bits {a b : ℕ} (ha : Odd a) (hb : Odd b) (s : Int) :
    (if (b / 2) % 2 = 1 ∧ (a / 2) % 2 = 1 then -s else s) * jacobiSym b a = s * jacobiSym a b := by
  have ha4 : a % 4 = 1 ∨ a % 4 = 3 := by
    have := Nat.odd_iff.mp ha; omega
  have hb4 : b % 4 = 1 ∨ b % 4 = 3 := by
    have := Nat.odd_iff.mp hb; omega
  rcases ha4 with h1 | h1
  · rw [if_neg (by omega), jacobiSym.quadratic_reciprocity_one_mod_four h1 hb]
  · rcases hb4 with h2 | h2
    · rw [if_neg (by omega), jacobiSym.quadratic_reciprocity_one_mod_four h2 ha]
    · rw [if_pos (by omega), jacobiSym.quadratic_reciprocity_three_mod_four h1 h2]; ring

theorem jacobi_zero_left {y : ℕ} (hy : Odd y) : jacobiSym 0 y = if y = 1 then 1 else 0 := by
  split_ifs with h
  · subst h; simp
  · have := hy.pos
    exact jacobiSym.zero_left (by omega)

theorem kronLoop_spec (x1 : ℕ) : ∀ (y : ℕ) (s : Int), Odd y →
    kronLoop x1 y s = s * jacobiSym x1 y := by
  induction x1 using Nat.strong_induction_on with
  | _ x1 ih =>
    intro y s hy
    rw [kronLoop]
    by_cases h : x1 ≠ 0
    · rw [dif_pos h]
      have hodd := val2_odd x1 h
      have hmul := val2_mul x1 h
      set x' := x1 / 2 ^ val2 x1 with hx'
      simp only
      have hpos : 0 < x' := hodd.pos
      have hlt : y % x' < x1 :=
        (Nat.mod_lt _ hpos).trans_le (by rw [hx']; exact Nat.div_le_self _ _)
      rw [ih _ hlt _ _ hodd]
      have hm : jacobiSym ((y % x' : ℕ) : Int) x' = jacobiSym (y : Int) x' := by
        rw [jacobiSym.mod_left (y : Int)]; simp
      rw [hm, recip_bits hodd hy]
      rw [pow_ite_neg (val2 x1) (bit8 y = true) s]
      have hyo : Odd (y : Int) := by exact_mod_cast hy
      rw [← chi8_bit8 (y : Int) hyo]
      conv_rhs => rw [← hmul]
      push_cast
      rw [jacobiSym.mul_left, jacobiSym.pow_left, jacobiSym.at_two hy]
      ring
    · rw [dif_neg h]
      push Not at h
      subst h
      have := jacobi_zero_left hy
      simp only [Nat.cast_zero, this]
      split_ifs <;> simp

theorem kronecker_eq (x y : Int) : kronecker x y = Spec.kronecker x y := by
  unfold kronecker Spec.kronecker
  by_cases hy : y = 0
  · subst hy
    have : x.natAbs = 1 ↔ |x| = 1 := by rw [Int.abs_eq_natAbs]; omega
    simp [this]
  · rw [if_neg hy, if_neg hy]
    have hn : y.natAbs ≠ 0 := Int.natAbs_ne_zero.mpr hy
    simp only
    rw [← val2_eq _ hn]
    set r := val2 y.natAbs with hr
    set s : Int := if y < 0 ∧ x < 0 then -1 else 1 with hs
    by_cases hc : r ≠ 0 ∧ x.emod 2 = 0
    · rw [if_pos hc]
      have h0 : ZMod.χ₈ (x : ZMod 8) = 0 := by
        rw [ZMod.χ₈_int_mod_eight]
        have h2 : x % 2 = 0 := hc.2
        have : x % 8 = 0 ∨ x % 8 = 2 ∨ x % 8 = 4 ∨ x % 8 = 6 := by omega
        rcases this with h | h | h | h <;> rw [h] <;> decide
      rw [h0, zero_pow hc.1]; simp
    · rw [if_neg hc]
      have hif : (if r ≠ 0 then y.natAbs / 2 ^ r else y.natAbs) = y.natAbs / 2 ^ r := by
        split_ifs with h
        · rfl
        · push Not at h; rw [h]; simp
      rw [hif]
      have hodd : Odd (y.natAbs / 2 ^ r) := val2_odd _ hn
      set m := y.natAbs / 2 ^ r with hm
      have hx1 : ((if x.tmod m < 0 then x.tmod m + m else x.tmod m).toNat : Int) = x % m := by
        have hmpos : 0 < (m : Int) := by exact_mod_cast hodd.pos
        have h1 := posmod_eq_emod x m hmpos
        unfold posmod at h1
        simp only at h1
        rw [h1, Int.toNat_of_nonneg (Int.emod_nonneg _ hmpos.ne')]
      rw [kronLoop_spec _ _ _ hodd, hx1, ← jacobiSym.mod_left]
      congr 1
      by_cases hr0 : r = 0
      · rw [hr0]; simp
      · have hxo : Odd x := by
          rw [Int.odd_iff]
          have : x.emod 2 ≠ 0 := fun h => hc ⟨hr0, h⟩
          have h3 : x % 2 ≠ 0 := this
          omega
        rw [pow_ite_neg r (bit8 x = true) s, chi8_bit8 x hxo]

/-! ## divisor lists -/

theorem mem_blocks (p : Int) (e : ℕ) (l : List Int) (d : Int) :
    d ∈ blocks p e l ↔ ∃ j ≤ e, ∃ x ∈ l, d = p ^ j * x := by
  induction e generalizing l with
  | zero => simp [blocks]
  | succ e ih =>
    rw [blocks, List.mem_append, ih]
    constructor
    · rintro (h | ⟨j, hj, x, hx, rfl⟩)
      · exact ⟨0, by omega, d, h, by simp⟩
      · obtain ⟨y, hy, rfl⟩ := List.mem_map.mp hx
        exact ⟨j + 1, by omega, y, hy, by ring⟩
    · rintro ⟨j, hj, x, hx, rfl⟩
      cases j with
      | zero => left; simpa using hx
      | succ j =>
        right
        exact ⟨j, by omega, p * x, List.mem_map.mpr ⟨x, hx, rfl⟩, by ring⟩

/-- The fold shared by `posdivs`, `sqdivs`, `sqfreedivs`, for an arbitrary exponent function. -/
def divFold (e : Int → ℕ) (plist : List Int) (l0 : List Int) : List Int :=
  plist.foldl (fun dl p => blocks p (e p) dl) l0

/-- `∏ p^(e p)`. -/
def divProd (e : Int → ℕ) (plist : List Int) : Int := (plist.map fun p => p ^ e p).prod

theorem divProd_concat (e : Int → ℕ) (ps : List Int) (p : Int) :
    divProd e (ps ++ [p]) = divProd e ps * p ^ e p := by
  simp [divProd]

theorem isCoprime_divProd {e : Int → ℕ} {ps : List Int} {p : Int}
    (h : ∀ q ∈ ps, IsCoprime q p) : IsCoprime (divProd e ps) p := by
  induction ps with
  | nil => simpa [divProd] using isCoprime_one_left
  | cons q ps ih =>
    simp only [divProd, List.map_cons, List.prod_cons]
    exact IsCoprime.mul_left ((h q (by simp)).pow_left) (ih fun r hr => h r (by simp [hr]))

theorem mem_divFold {e : Int → ℕ} (ps : List Int) (hpos : ∀ p ∈ ps, 0 < p)
    (hprime : ∀ p ∈ ps, Prime p) (hco : ps.Pairwise IsCoprime) (d : Int) :
    d ∈ divFold e ps [1] ↔ 0 < d ∧ d ∣ divProd e ps := by
  induction ps using List.reverseRecOn generalizing d with
  | nil =>
    simp only [divFold, List.foldl_nil, List.mem_singleton, divProd, List.map_nil, List.prod_nil]
    constructor
    · rintro rfl; exact ⟨one_pos, one_dvd _⟩
    · rintro ⟨h1, h2⟩; exact Int.eq_one_of_dvd_one h1.le h2
  | append_singleton ps p ih =>
    have hco' := List.pairwise_append.mp hco
    have ih' := ih (fun q hq => hpos q (by simp [hq])) (fun q hq => hprime q (by simp [hq])) hco'.1
    have hp : Prime p := hprime p (by simp)
    have hp0 : 0 < p := hpos p (by simp)
    have hcop : IsCoprime (divProd e ps) p :=
      isCoprime_divProd fun q hq => hco'.2.2 q hq p (by simp)
    have hstep : divFold e (ps ++ [p]) [1] = blocks p (e p) (divFold e ps [1]) := by
      simp [divFold]
    rw [hstep, mem_blocks, divProd_concat]
    constructor
    · rintro ⟨j, hj, x, hx, rfl⟩
      obtain ⟨hx0, hxd⟩ := (ih' x).mp hx
      refine ⟨by positivity, ?_⟩
      rw [mul_comm]
      exact mul_dvd_mul hxd (pow_dvd_pow p hj)
    · rintro ⟨hd0, hd⟩
      obtain ⟨x, y, hx, hy, rfl⟩ := exists_dvd_and_dvd_of_dvd_mul hd
      obtain ⟨j, hj, u⟩ := (dvd_prime_pow hp _).mp hy
      obtain ⟨u, hu⟩ := u
      have hy' : |y| = p ^ j := by
        have h1 : |y * (u : Int)| = p ^ j := by rw [hu]; exact abs_of_nonneg (by positivity)
        rcases Int.units_eq_one_or u with rfl | rfl <;> simpa using h1
      refine ⟨j, hj, |x|, (ih' _).mpr ⟨?_, (abs_dvd _ _).mpr hx⟩, ?_⟩
      · exact abs_pos.mpr (left_ne_zero_of_mul hd0.ne')
      · rw [← hy', ← abs_mul, mul_comm y x, abs_of_pos hd0]

theorem blocks_nodup {p : Int} (hp : Prime p) (e : ℕ) (l : List Int) (hl : l.Nodup)
    (h : ∀ x ∈ l, ¬ p ∣ x) : (blocks p e l).Nodup := by
  have hp0 : p ≠ 0 := hp.ne_zero
  -- generalise: all elements have the same p-valuation `k`
  have key : ∀ (e k : ℕ) (l : List Int), l.Nodup → (∀ x ∈ l, ∃ y, x = p ^ k * y ∧ ¬ p ∣ y) →
      (blocks p e l).Nodup := by
    intro e
    induction e with
    | zero => intro k l hl _; exact hl
    | succ e ih =>
      intro k l hl hv
      rw [blocks, List.nodup_append]
      refine ⟨hl, ih (k + 1) _ ?_ ?_, ?_⟩
      · exact hl.map (fun a b hab => mul_left_cancel₀ hp0 hab)
      · intro x hx
        obtain ⟨z, hz, rfl⟩ := List.mem_map.mp hx
        obtain ⟨y, rfl, hy⟩ := hv z hz
        exact ⟨y, by ring, hy⟩
      · intro a ha b hb hab
        subst hab
        obtain ⟨y, rfl, hy⟩ := hv _ ha
        obtain ⟨j, _, x, hx, hxe⟩ := (mem_blocks _ _ _ _).mp hb
        obtain ⟨z, hz, rfl⟩ := List.mem_map.mp hx
        obtain ⟨w, rfl, _⟩ := hv z hz
        apply hy
        have : p ^ k * y = p ^ k * (p * (p ^ j * w)) := by rw [hxe]; ring
        exact ⟨_, mul_left_cancel₀ (pow_ne_zero _ hp0) this⟩
  exact key e 0 l hl (fun x hx => ⟨x, by simp, h x hx⟩)

theorem divFold_nodup {e : Int → ℕ} (ps : List Int) (hpos : ∀ p ∈ ps, 0 < p)
    (hprime : ∀ p ∈ ps, Prime p) (hco : ps.Pairwise IsCoprime) : (divFold e ps [1]).Nodup := by
  induction ps using List.reverseRecOn with
  | nil => simp [divFold]
  | append_singleton ps p ih =>
    have hco' := List.pairwise_append.mp hco
    have h1 : ∀ q ∈ ps, 0 < q := fun q hq => hpos q (by simp [hq])
    have h2 : ∀ q ∈ ps, Prime q := fun q hq => hprime q (by simp [hq])
    have hstep : divFold e (ps ++ [p]) [1] = blocks p (e p) (divFold e ps [1]) := by
      simp [divFold]
    have hp : Prime p := hprime p (by simp)
    rw [hstep]
    refine blocks_nodup hp _ _ (ih h1 h2 hco'.1) ?_
    intro x hx hpx
    have hxd := ((mem_divFold ps h1 h2 hco'.1 x).mp hx).2
    have hcop : IsCoprime (divProd e ps) p :=
      isCoprime_divProd fun q hq => hco'.2.2 q hq p (by simp)
    exact hp.not_isUnit (hcop.isUnit_of_dvd' (hpx.trans hxd) dvd_rfl)

theorem pairwise_coprime_of_primes {ps : List Int} (hpos : ∀ p ∈ ps, 0 < p)
    (hprime : ∀ p ∈ ps, Prime p) (hnd : ps.Nodup) : ps.Pairwise IsCoprime := by
  refine hnd.imp_of_mem (fun {a b} ha hb hne => ?_)
  refine (hprime a ha).irreducible.coprime_iff_not_dvd.mpr ?_
  intro hd
  have hass := (hprime a ha).associated_of_dvd (hprime b hb) hd
  rcases Int.associated_iff.mp hass with h | h
  · exact hne h
  · have := hpos a ha; have := hpos b hb; omega

end Eclib.Arith
