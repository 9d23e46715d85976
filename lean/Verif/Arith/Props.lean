import Verif.Arith.DivLemmas
import Verif.Arith.Euclid

/-!
# Property theorems for libsrc/arith.cc (C01, C02, C04, C05, C06, C07)

Each theorem is followed by a concrete non-trivial instance of its hypotheses.
-/

namespace Eclib.Arith.Props

open Eclib.Arith

/-! ## C01: gcd and extended gcd -/

/-- `gcd(a,b)` is the non-negative greatest common divisor, for all signs and zeros. -/
theorem C01_gcd (a b : Int) :
    0 ≤ gcd a b ∧ gcd a b ∣ a ∧ gcd a b ∣ b ∧ ∀ d : Int, d ∣ a → d ∣ b → d ∣ gcd a b := by
  rw [gcd_eq]
  exact ⟨Int.natCast_nonneg _, Int.gcd_dvd_left .., Int.gcd_dvd_right .., fun d h1 h2 =>
    Int.dvd_coe_gcd h1 h2⟩

example : gcd (-12) 18 = 6 := by decide +kernel
example : gcd 0 (-7) = 7 := by decide +kernel

/-- `bezout(a,b,x,y)` returns the gcd and coefficients with `a*x+b*y` equal to it. -/
theorem C01_bezout (a b : Int) :
    (bezout a b).1 = gcd a b ∧
      a * (bezout a b).2.1 + b * (bezout a b).2.2 = gcd a b := by
  refine ⟨by rw [bezout_fst, gcd_eq], ?_⟩
  rw [bezout_identity, bezout_fst, gcd_eq]

example : bezout (-12) 18 = (6, 1, 1) := by decide +kernel

/-- `n` iterations of the `bezout` loop body. -/
def iter : ℕ → BezoutState → BezoutState
  | 0, s => s
  | n + 1, s => iter n s.step

/-- The values of the loop variables of `bezout` at every iteration: while the loop is still
running, all variables, and the products formed by the loop body, are bounded by
`max(|a|,|b|,1)`, so on machine integers no overflow occurs in the loop (for any signs). -/
theorem C01_bezout_bounded (a b : Int) (n : ℕ)
    (hrun : ∀ m < n, (iter m (BezoutState.init a b)).b ≠ 0) :
    let s := iter n (BezoutState.init a b)
    let M := max (max |a| |b|) 1
    |s.a| ≤ M ∧ |s.b| ≤ M ∧ |s.oldx| ≤ M ∧ |s.oldy| ≤ M ∧ |s.x| ≤ M ∧ |s.y| ≤ M ∧
      (s.b ≠ 0 → |s.a.tdiv s.b| ≤ M ∧ |s.a.tdiv s.b * s.b| ≤ M ∧ |s.a.tdiv s.b * s.x| ≤ M ∧
        |s.a.tdiv s.b * s.y| ≤ M) := by
  intro s M
  have hMa : |a| ≤ M := le_trans (le_max_left _ _) (le_max_left _ _)
  have hMb : |b| ≤ M := le_trans (le_max_right _ _) (le_max_left _ _)
  have hM1 : 1 ≤ M := le_max_right _ _
  have key : ∀ (n : ℕ) (s : BezoutState),
      (Column |b| s.a s.b s.oldx s.x ∧ Column |a| s.a s.b s.oldy s.y ∧ |s.a| ≤ M ∧ |s.b| ≤ M ∧
        |s.oldx| ≤ M ∧ |s.oldy| ≤ M ∧ |s.x| ≤ M ∧ |s.y| ≤ M) →
      (∀ m < n, (iter m s).b ≠ 0) →
      (Column |b| (iter n s).a (iter n s).b (iter n s).oldx (iter n s).x ∧
        Column |a| (iter n s).a (iter n s).b (iter n s).oldy (iter n s).y ∧
        |(iter n s).a| ≤ M ∧ |(iter n s).b| ≤ M ∧ |(iter n s).oldx| ≤ M ∧ |(iter n s).oldy| ≤ M ∧
        |(iter n s).x| ≤ M ∧ |(iter n s).y| ≤ M) := by
    intro n
    induction n with
    | zero => intro s h _; exact h
    | succ n ih =>
      intro s ⟨h1, h2, h3, h4, h5, h6, h7, h8⟩ hr
      have hb0 : s.b ≠ 0 := hr 0 (by omega)
      have c1 := h1.step hb0
      have c2 := h2.step hb0
      refine ih s.step ⟨c1, c2, h4, ?_, h7, h8, (c1.bound_x hb0).trans hMb,
        (c2.bound_x hb0).trans hMa⟩ (fun m hm => hr (m + 1) (by omega))
      rw [step_b]
      have := abs_tdiv_tmod s.a s.b
      have := mul_nonneg (abs_nonneg (s.a.tdiv s.b)) (abs_nonneg s.b)
      omega
  obtain ⟨c1, c2, h3, h4, h5, h6, h7, h8⟩ := key n (BezoutState.init a b)
    ⟨⟨by simp [BezoutState.init], by simp [BezoutState.init]⟩,
      ⟨by simp [BezoutState.init], by simp [BezoutState.init]⟩, hMa, hMb,
      by simpa [BezoutState.init] using hM1, by simp [BezoutState.init]; omega,
      by simp [BezoutState.init]; omega, by simpa [BezoutState.init] using hM1⟩ hrun
  refine ⟨h3, h4, h5, h6, h7, h8, fun hb0 => ?_⟩
  change Column |b| s.a s.b s.oldx s.x at c1
  change Column |a| s.a s.b s.oldy s.y at c2
  have e := abs_tdiv_tmod s.a s.b
  have e1 : 1 ≤ |s.b| := Int.one_le_abs hb0
  have e2 := abs_nonneg (s.a.tdiv s.b)
  have e3 := abs_nonneg (s.a.tmod s.b)
  have q1 : |s.a.tdiv s.b * s.x| ≤ M := by
    have h := (c1.step hb0).bound_x hb0
    have h' := abs_sub_of_opp (c1.sign_q hb0)
    rw [h'] at h
    have := abs_nonneg s.oldx
    omega
  have q2 : |s.a.tdiv s.b * s.y| ≤ M := by
    have h := (c2.step hb0).bound_x hb0
    have h' := abs_sub_of_opp (c2.sign_q hb0)
    rw [h'] at h
    have := abs_nonneg s.oldy
    omega
  have h3' : |s.a| ≤ M := h3
  refine ⟨by nlinarith, by rw [abs_mul]; omega, q1, q2⟩

example : (iter 3 (BezoutState.init (-240) 46)).b ≠ 0 := by decide

/-- `lcm(a,b)` is, up to sign, the least common multiple. -/
theorem C01_lcm (a b : Int) : |lcm a b| = (Int.lcm a b : Int) := by
  unfold lcm
  simp only [gcd_eq]
  by_cases h : (Int.gcd a b : Int) = 0
  · rw [if_pos h]
    have h' : Int.gcd a b = 0 := by exact_mod_cast h
    obtain ⟨rfl, rfl⟩ := Int.gcd_eq_zero_iff.mp h'
    simp
  · rw [if_neg h]
    obtain ⟨k, hk⟩ := Int.gcd_dvd_right a b
    have hg : (0 : Int) < Int.gcd a b := by
      have : (0 : Int) ≤ Int.gcd a b := Int.natCast_nonneg _
      omega
    have e : b.tdiv (Int.gcd a b) = k := by
      have := Int.mul_tdiv_cancel_left k h
      rwa [← hk] at this
    rw [e]
    have h1 : ((Int.gcd a b : Int)) * (Int.lcm a b : Int) = |a * b| := by
      have := Int.gcd_mul_lcm a b
      rw [Int.abs_eq_natAbs, Int.natAbs_mul, ← this]; push_cast; rfl
    have h2 : |a * b| = (Int.gcd a b : Int) * |a * k| := by
      conv_lhs => rw [hk]
      rw [show a * ((Int.gcd a b : Int) * k) = (Int.gcd a b : Int) * (a * k) by ring, abs_mul,
        abs_of_pos hg]
    exact mul_left_cancel₀ h (h2.symm.trans h1.symm)

example : lcm (-4) 6 = -12 := by decide +kernel

/-! ## C02: modular inverse -/

/-- `invmod(a,p)` inverts `a` modulo `p` whenever that is possible. -/
theorem C02_invmod_inverse (a p : Int) (h : Int.gcd a p = 1) :
    Spec.Cong p (a * invmod a p) 1 := by
  unfold invmod
  have h1 := bezout_fst a p
  have h2 := bezout_identity a p
  rw [h] at h1
  simp only [h1, Nat.cast_one, if_true]
  rw [h1] at h2
  exact ⟨-(bezout a p).2.2, by push_cast at h2; linarith⟩

/-- and returns `0` otherwise (i.e. when no inverse exists). -/
theorem C02_invmod_noninvertible (a p : Int) (h : ¬ ∃ x, Spec.Cong p (a * x) 1) :
    invmod a p = 0 := by
  unfold invmod
  simp only [bezout_fst]
  by_cases hg : Int.gcd a p = 1
  · exact absurd ⟨_, C02_invmod_inverse a p hg⟩ h
  · have : ¬ ((Int.gcd a p : Int) = 1) := by exact_mod_cast hg
    simp only [this, if_false]

example : invmod 3 7 = -2 ∧ invmod 4 6 = 0 := by decide +kernel

/-! ## C04: residues -/

/-- `mod(a,b)` for `b ≠ 0`: congruent to `a` and in `(-|b|/2, |b|/2]`. -/
theorem C04_mod (a b : Int) (hb : b ≠ 0) :
    Spec.Cong b (mod a b) a ∧ -|b| < 2 * mod a b ∧ 2 * mod a b ≤ |b| := by
  have key : ∀ B : Int, 0 < B → ∀ c : Int, (0 ≤ c ∧ c ≤ B) → B ∣ c - a →
      B ∣ (if c > B / 2 then c - B else c) - a ∧ -B < 2 * (if c > B / 2 then c - B else c) ∧
        2 * (if c > B / 2 then c - B else c) ≤ B := by
    intro B hB c hc hd
    split_ifs with h
    · refine ⟨?_, by omega, by omega⟩
      have : c - B - a = (c - a) - B := by ring
      rw [this]
      exact dvd_sub hd dvd_rfl
    · exact ⟨hd, by omega, by omega⟩
  have hc : ∀ B : Int, 0 < B → (0 ≤ (if a ≥ 0 then a.tmod B else B - (-a).tmod B) ∧
      (if a ≥ 0 then a.tmod B else B - (-a).tmod B) ≤ B) ∧
      B ∣ (if a ≥ 0 then a.tmod B else B - (-a).tmod B) - a := by
    intro B hB
    split_ifs with h
    · have h1 := Int.tmod_nonneg B h
      have h2 := Int.tmod_lt_of_pos a hB
      refine ⟨⟨h1, h2.le⟩, ?_⟩
      have := tmod_dvd_sub a B
      rw [← Int.dvd_neg]
      simpa using this
    · have h1 := Int.tmod_nonneg (a := -a) B (by omega)
      have h2 := Int.tmod_lt_of_pos (-a) hB
      refine ⟨⟨by omega, by omega⟩, ?_⟩
      have h3 := tmod_dvd_sub (-a) B
      have : B - (-a).tmod B - a = B + (-a - (-a).tmod B) := by ring
      rw [this]
      exact dvd_add dvd_rfl h3
  unfold mod Spec.Cong
  by_cases hneg : b < 0
  · simp only [hneg, if_true]
    rw [abs_of_neg hneg]
    have h := hc (-b) (by omega)
    have := key (-b) (by omega) _ h.1 h.2
    rw [Int.neg_dvd] at this
    exact this
  · simp only [hneg, if_false]
    rw [abs_of_nonneg (by omega)]
    have h := hc b (by omega)
    exact key b (by omega) _ h.1 h.2

example : mod (-7) 10 = 3 ∧ mod 5 (-10) = 5 ∧ mod (-5) 10 = 5 := by decide +kernel

/-- `posmod(a,b)` for a positive modulus. -/
theorem C04_posmod_partial (a b : Int) (hb : 0 < b) :
    Spec.Cong b (posmod a b) a ∧ 0 ≤ posmod a b ∧ posmod a b < b := by
  rw [posmod_eq_emod a b hb]
  refine ⟨?_, Int.emod_nonneg _ hb.ne', Int.emod_lt_of_pos _ hb⟩
  have := Int.dvd_self_sub_emod (x := a) (m := b)
  unfold Spec.Cong
  rw [← Int.dvd_neg]
  simpa using this

example : posmod (-7) 5 = 3 := by decide +kernel

/-- The full statement, for every non-zero modulus, fails for the `long` version: with a negative
modulus the result can be negative (and out of range). -/
theorem C04_posmod_negative_modulus_counterexample :
    ¬ ∀ a b : Int, b ≠ 0 → 0 ≤ posmod a b ∧ posmod a b < |b| := by
  intro h
  have := h (-1) (-5) (by decide)
  revert this
  decide +kernel

/-- `rounded_division(a,b)` for `b > 0`: `a/b = q + r/b` with `-1/2 ≤ r/b < 1/2`. -/
theorem C04_rounded_division (a b : Int) (hb : 0 < b) :
    Spec.NearestUp a b (roundedDivision a b) := by
  unfold Spec.NearestUp roundedDivision
  have h := Int.tmod_add_mul_tdiv a b
  have habs : (a.tmod b).natAbs < b.natAbs := by
    rw [Int.natAbs_tmod]; exact Nat.mod_lt _ (by omega)
  simp only
  have hc := mul_comm b (a.tdiv b)
  split_ifs with h1 h2
  · have e : (a.tdiv b - 1) * b = a.tdiv b * b - b := by ring
    rw [e]; constructor <;> omega
  · have e : (a.tdiv b + 1) * b = a.tdiv b * b + b := by ring
    rw [e]; constructor <;> omega
  · constructor <;> omega

/-- and therefore the quotient is determined: no other integer satisfies the specification. -/
theorem C04_rounded_division_unique (a b q : Int) (hb : 0 < b) (hq : Spec.NearestUp a b q) :
    q = roundedDivision a b := by
  have h := C04_rounded_division a b hb
  unfold Spec.NearestUp at h hq
  by_contra hne
  rcases lt_or_gt_of_ne hne with hlt | hlt
  · have : (q + 1) * b ≤ roundedDivision a b * b :=
      mul_le_mul_of_nonneg_right (by omega) hb.le
    nlinarith
  · have : (roundedDivision a b + 1) * b ≤ q * b :=
      mul_le_mul_of_nonneg_right (by omega) hb.le
    nlinarith

example : roundedDivision 5 10 = 1 ∧ roundedDivision (-5) 10 = 0 ∧ roundedDivision (-6) 10 = -1 := by
  decide +kernel

/-! ## C05: quadratic residue symbols -/

/-- `legendre(a,b)` is the Jacobi symbol for odd positive `b` (and terminates). -/
theorem C05_legendre (a : Int) (b : ℕ) (hb : Odd b) :
    legendre a b = some (jacobiSym a b) := by
  unfold legendre
  have h2 : (b : Int).tmod 2 ≠ 0 := by
    intro h
    have hd := Int.dvd_of_tmod_eq_zero h
    have := Nat.odd_iff.mp hb
    omega
  by_cases hg : Int.gcd a b = 1
  · rw [if_pos ⟨by rw [gcd_eq, hg]; rfl, h2⟩]
    unfold leg
    rw [legLoop_spec b a 1 hb hg, one_mul]
  · rw [if_neg]
    · congr 1
      symm
      have : NeZero b := ⟨hb.pos.ne'⟩
      exact jacobiSym.eq_zero_iff_not_coprime.mpr hg
    · rintro ⟨h, -⟩
      rw [gcd_eq] at h
      exact hg (by exact_mod_cast h)

/-- For even `b` the result is `0`. -/
theorem C05_legendre_even (a b : Int) (hb : Even b) : legendre a b = some 0 := by
  unfold legendre
  rw [if_neg]
  rintro ⟨-, h⟩
  exact h (Int.tmod_eq_zero_of_dvd hb.two_dvd)

example : legendre 2 15 = some 1 ∧ legendre (-3) 11 = some (-1) ∧ legendre 5 15 = some 0 := by
  decide +kernel

/-- For an odd prime `p`, `legendre(a,p)` decides quadratic residuosity. -/
theorem C05_legendre_prime (a : Int) (p : ℕ) [Fact p.Prime] (hp : p ≠ 2) (ha : (a : ZMod p) ≠ 0) :
    legendre a p = some 1 ↔ IsSquare (a : ZMod p) := by
  have hodd : Odd p := (Fact.out (p := p.Prime)).odd_of_ne_two hp
  rw [C05_legendre a p hodd, ← jacobiSym.legendreSym.to_jacobiSym, Option.some.injEq,
    legendreSym.eq_one_iff p ha]

/-- The `long` version of `kronecker(x,y)` is the Kronecker symbol for all integers. -/
theorem C05_kronecker_long (x y : Int) : kronecker x y = Spec.kronecker x y := kronecker_eq x y

example : kronecker 3 2 = -1 ∧ kronecker (-1) (-1) = -1 ∧ kronecker 1 0 = 1 ∧
    kronecker (-5) 12 = 1 := by decide +kernel

/-! ## C06: valuation -/

/-- `val(f,n)` is the exact power of `f` dividing `n`. -/
theorem C06_val (f n : Int) (hf : 2 ≤ |f|) (hn : n ≠ 0) : Spec.ExactPower f n (val f n) :=
  val_spec f n hf hn

/-- The exact power is unique, so `C06_val` determines the value. -/
theorem C06_val_unique (f n : Int) (e : ℕ) (hf : 2 ≤ |f|) (hn : n ≠ 0)
    (he : Spec.ExactPower f n e) : e = val f n := by
  have h := C06_val f n hf hn
  obtain ⟨h1, h2⟩ := h
  obtain ⟨h3, h4⟩ := he
  by_contra hne
  rcases lt_or_gt_of_ne hne with hlt | hlt
  · exact h4 ((pow_dvd_pow f (by omega)).trans h1)
  · exact h2 ((pow_dvd_pow f (by omega)).trans h3)

/-- The error value is returned exactly for `n = 0` or `|f| < 2`. -/
theorem C06_val_error (f n : Int) (h : n = 0 ∨ |f| < 2) : val f n = 99999 := by
  unfold val
  simp only
  rw [if_pos]
  rcases h with rfl | h
  · simp
  · right; rw [Int.abs_eq_natAbs] at h; omega

example : val (-2) 40 = 3 := by decide +kernel

/-! ## C07: divisor lists -/

/-- `posdivs(a,plist)` lists every positive divisor of `a` exactly once. -/
theorem C07_posdivs (a : Int) (ha : a ≠ 0) (ps : List Int) (hps : Spec.IsPrimeDivisorList a ps) :
    (posdivs a ps).Nodup ∧ ∀ d, d ∈ posdivs a ps ↔ 0 < d ∧ d ∣ a := by
  have hpos : ∀ p ∈ ps, 0 < p := fun p hp => ((hps.mem p).mp hp).1
  have hprime : ∀ p ∈ ps, Prime p := fun p hp => ((hps.mem p).mp hp).2.1
  have hco := pairwise_coprime_of_primes hpos hprime hps.nodup
  have hdef : posdivs a ps = divFold (fun p => val p a) ps [1] := rfl
  refine ⟨by rw [hdef]; exact divFold_nodup ps hpos hprime hco, fun d => ?_⟩
  rw [hdef, mem_divFold ps hpos hprime hco]
  refine and_congr_right fun hd0 => ?_
  rw [dvd_divProd_iff hpos hprime hps.nodup hd0.ne']
  constructor
  · intro h
    by_contra hc
    obtain ⟨p, k, hp0, hp, h1, h2⟩ := exists_prime_dvd_of_not_dvd hc
    exact h2 ((pow_dvd_iff_le_val hp ha _).mpr (h p k hp0 hp h1).2)
  · intro h p k hp0 hp hk
    have := hk.trans h
    exact ⟨(hps.mem p).mpr ⟨hp0, hp, (dvd_pow_self p (by omega)).trans this⟩,
      (pow_dvd_iff_le_val hp ha _).mp this⟩

/-- `alldivs(a,plist)` lists every divisor of `a`, of either sign, exactly once. -/
theorem C07_alldivs (a : Int) (ha : a ≠ 0) (ps : List Int) (hps : Spec.IsPrimeDivisorList a ps) :
    (alldivs a ps).Nodup ∧ ∀ d, d ∈ alldivs a ps ↔ d ∣ a := by
  have hpos : ∀ p ∈ ps, 0 < p := fun p hp => ((hps.mem p).mp hp).1
  have hprime : ∀ p ∈ ps, Prime p := fun p hp => ((hps.mem p).mp hp).2.1
  have hco := pairwise_coprime_of_primes hpos hprime hps.nodup
  have hdef : alldivs a ps = divFold (fun p => val p a) ps [1, -1] := rfl
  have hdef1 : posdivs a ps = divFold (fun p => val p a) ps [1] := rfl
  refine ⟨by rw [hdef]; exact divFold_pm_nodup ps hpos hprime hco, fun d => ?_⟩
  rw [hdef, mem_divFold_pm, ← hdef1, (C07_posdivs a ha ps hps).2, (C07_posdivs a ha ps hps).2]
  constructor
  · rintro (⟨_, h⟩ | ⟨_, h⟩)
    · exact h
    · exact (Int.neg_dvd).mp h
  · intro h
    have : d ≠ 0 := fun h0 => ha (by simpa [h0] using h)
    rcases lt_or_gt_of_ne this with h0 | h0
    · exact Or.inr ⟨by omega, (Int.neg_dvd).mpr h⟩
    · exact Or.inl ⟨h0, h⟩

/-- `sqdivs(a,plist)` lists exactly the `d > 0` with `d^2 | a`, once each. -/
theorem C07_sqdivs (a : Int) (ha : a ≠ 0) (ps : List Int) (hps : Spec.IsPrimeDivisorList a ps) :
    (sqdivs a ps).Nodup ∧ ∀ d, d ∈ sqdivs a ps ↔ 0 < d ∧ d ^ 2 ∣ a := by
  have hpos : ∀ p ∈ ps, 0 < p := fun p hp => ((hps.mem p).mp hp).1
  have hprime : ∀ p ∈ ps, Prime p := fun p hp => ((hps.mem p).mp hp).2.1
  have hco := pairwise_coprime_of_primes hpos hprime hps.nodup
  have hdef : sqdivs a ps = divFold (fun p => val p a / 2) ps [1] := rfl
  refine ⟨by rw [hdef]; exact divFold_nodup ps hpos hprime hco, fun d => ?_⟩
  rw [hdef, mem_divFold ps hpos hprime hco]
  refine and_congr_right fun hd0 => ?_
  rw [dvd_divProd_iff hpos hprime hps.nodup hd0.ne']
  constructor
  · intro h
    by_contra hc
    obtain ⟨p, k, hp0, hp, h1, h2⟩ := exists_prime_dvd_of_not_dvd hc
    -- p^(k+1) | d^2, let v be the exact power of p in d
    have hp2 : 2 ≤ |p| := by
      have h1 := Int.prime_iff_natAbs_prime.mp hp
      have := h1.two_le
      rw [Int.abs_eq_natAbs]; exact_mod_cast this
    obtain ⟨⟨y, hy⟩, hv2⟩ := C06_val p d hp2 hd0.ne'
    set v := val p d with hv
    have hpy : ¬ p ∣ y := by
      intro ⟨z, hz⟩
      apply hv2
      exact ⟨z, by rw [hy, hz, pow_succ]; ring⟩
    have hk : k + 1 ≤ 2 * v := by
      by_contra hlt
      have h3 : p ^ (2 * v + 1) ∣ d ^ 2 := (pow_dvd_pow p (by omega)).trans h1
      have h4 : p ^ (2 * v) * p ∣ p ^ (2 * v) * y ^ 2 := by
        have : d ^ 2 = p ^ (2 * v) * y ^ 2 := by
          conv_lhs => rw [hy]
          ring
        rw [← this, ← pow_succ]; exact h3
      have h5 := (mul_dvd_mul_iff_left (pow_ne_zero _ hp.ne_zero)).mp h4
      exact hpy (hp.dvd_of_dvd_pow h5)
    cases hvv : v with
    | zero => omega
    | succ w =>
      have := (h p w hp0 hp (by rw [← hvv, hy]; exact Dvd.intro _ rfl)).2
      apply h2
      refine (pow_dvd_iff_le_val hp ha _).mpr ?_
      omega
  · intro h p k hp0 hp hk
    have h1 : p ^ ((k + 1) * 2) ∣ a := by
      rw [pow_mul]; exact (pow_dvd_pow_of_dvd hk 2).trans h
    refine ⟨(hps.mem p).mpr ⟨hp0, hp, (dvd_pow_self p (by omega)).trans h1⟩, ?_⟩
    have := (pow_dvd_iff_le_val hp ha _).mp h1
    omega

/-- `sqfreedivs(a,plist)` lists exactly the square-free positive divisors, once each. -/
theorem C07_sqfreedivs (a : Int) (ps : List Int) (hps : Spec.IsPrimeDivisorList a ps) :
    (sqfreedivs a ps).Nodup ∧ ∀ d, d ∈ sqfreedivs a ps ↔ 0 < d ∧ Squarefree d ∧ d ∣ a := by
  have hpos : ∀ p ∈ ps, 0 < p := fun p hp => ((hps.mem p).mp hp).1
  have hprime : ∀ p ∈ ps, Prime p := fun p hp => ((hps.mem p).mp hp).2.1
  have hco := pairwise_coprime_of_primes hpos hprime hps.nodup
  have hdef : sqfreedivs a ps = divFold (fun _ => 1) ps [1] := rfl
  refine ⟨by rw [hdef]; exact divFold_nodup ps hpos hprime hco, fun d => ?_⟩
  rw [hdef, mem_divFold ps hpos hprime hco]
  refine and_congr_right fun hd0 => ?_
  rw [dvd_divProd_iff hpos hprime hps.nodup hd0.ne']
  constructor
  · intro h
    constructor
    · rw [squarefree_iff_irreducible_sq_not_dvd_of_ne_zero hd0.ne']
      intro x hx hxx
      have hxp : Prime x := hx.prime
      have habs : Prime |x| := by
        rcases abs_choice x with h | h <;> rw [h]
        · exact hxp
        · exact (Associated.neg_left (Associated.refl x)).symm.prime hxp
      have := (h |x| 1 (abs_pos.mpr hx.ne_zero) habs (by rw [sq_abs, sq]; exact hxx)).2
      omega
    · by_contra hc
      obtain ⟨p, k, hp0, hp, h1, h2⟩ := exists_prime_dvd_of_not_dvd hc
      obtain ⟨h3, h4⟩ := h p k hp0 hp h1
      have hk : k = 0 := by omega
      subst hk
      exact h2 (by simpa using ((hps.mem p).mp h3).2.2)
  · rintro ⟨hsq, hda⟩ p k hp0 hp hk
    refine ⟨(hps.mem p).mpr ⟨hp0, hp, ((dvd_pow_self p (by omega)).trans hk).trans hda⟩, ?_⟩
    by_contra hc
    have : p * p ∣ d := by
      rw [← sq]; exact (pow_dvd_pow p (by omega)).trans hk
    exact hp.not_isUnit (hsq p this)

example : Spec.IsPrimeDivisorList 12 [2, 3] := by
  refine ⟨by decide, fun p => ?_⟩
  constructor
  · intro h
    rcases List.mem_cons.mp h with rfl | h
    · exact ⟨by norm_num, Int.prime_two, by norm_num⟩
    · rcases List.mem_singleton.mp h with rfl
      exact ⟨by norm_num, Int.prime_three, by norm_num⟩
  · rintro ⟨h0, hp, hd⟩
    have h2 : p ∣ 2 * 2 * 3 := by simpa using hd
    have : p ∣ 2 ∨ p ∣ 3 := by
      rcases hp.dvd_or_dvd h2 with h | h
      · rcases hp.dvd_or_dvd h with h | h <;> exact Or.inl h
      · exact Or.inr h
    rcases this with h | h
    · have h3 := Int.le_of_dvd (by norm_num) h
      interval_cases p
      · exact absurd hp not_prime_one
      · simp
    · have h3 := Int.le_of_dvd (by norm_num) h
      interval_cases p
      · exact absurd hp not_prime_one
      · simp
      · simp

example : posdivs 12 [2, 3] = [1, 2, 4, 3, 6, 12] ∧ alldivs 12 [2, 3] = [1, -1, 2, -2, 4, -4, 3, -3, 6, -6, 12, -12] ∧
    sqdivs 12 [2, 3] = [1, 2] ∧
    sqfreedivs 12 [2, 3] = [1, 2, 3, 6] := by decide +kernel

end Eclib.Arith.Props
