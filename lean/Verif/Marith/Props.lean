import Verif.Marith.Lemmas2
import Verif.Arith.Props

/-!
# Property theorems for libsrc/marith.cc (C02-C06, C09, C12-C14)

Each theorem is followed by a concrete non-trivial instance of its hypotheses.
The NTL routines are universally quantified parameters `X : XGcd`, `S : SqrRootMod`; the instances
`xgcd0`, `sqr0` below show that their contracts can be met.
-/

namespace Eclib.Marith.Props

open Eclib.Marith

/-- The coefficient `s` in `a*s + b*t = gcd(a,b)`, by exhaustive search. -/
def coeff0 (a b : Int) : Int :=
  if b = 0 then a.sign
  else (((List.range b.natAbs).find? (fun x : ℕ => decide (b ∣ (Int.gcd a b : Int) - a * x))).getD 0 : ℕ)

theorem coeff0_spec (a b : Int) : b ∣ (Int.gcd a b : Int) - a * coeff0 a b := by
  unfold coeff0
  split_ifs with hb
  · subst hb
    simp [Int.mul_sign_self]
  · cases hf : (List.range b.natAbs).find?
        (fun x : ℕ => decide (b ∣ (Int.gcd a b : Int) - a * x)) with
    | none =>
      rw [List.find?_eq_none] at hf
      exfalso
      have hlt := Int.emod_lt_abs (Int.gcdA a b) hb
      have hnn := Int.emod_nonneg (Int.gcdA a b) hb
      have := hf (Int.gcdA a b % b).toNat (by rw [List.mem_range]; rw [Int.abs_eq_natAbs] at hlt; omega)
      simp only [decide_eq_true_eq] at this
      apply this
      rw [Int.toNat_of_nonneg hnn, Int.gcd_eq_gcd_ab]
      have e : a * Int.gcdA a b + b * Int.gcdB a b - a * (Int.gcdA a b % b) =
          a * (Int.gcdA a b - Int.gcdA a b % b) + b * Int.gcdB a b := by ring
      rw [e]
      exact dvd_add (Int.dvd_self_sub_emod.mul_left a) (dvd_mul_right b _)
    | some y =>
      have := List.find?_some hf
      simpa using this

/-- An implementation of NTL's `XGCD` contract. -/
def xgcd0 : XGcd where
  run a b := (Int.gcd a b, coeff0 a b, ((Int.gcd a b : Int) - a * coeff0 a b) / b)
  gcd_eq _ _ := rfl
  identity a b := by
    simp only
    rw [Int.mul_ediv_cancel' (coeff0_spec a b)]; ring

/-- An implementation of NTL's `SqrRootMod` contract, by exhaustive search. -/
def sqr0 : SqrRootMod where
  run a p := (((List.range p.toNat).find? (fun x : ℕ => decide (p ∣ (x : Int) ^ 2 - a))).getD 0 : ℕ)
  spec a p hp _ _ _ hsq := by
    have := Fact.mk hp
    obtain ⟨x, hx⟩ := hsq
    have hdvd : (p : Int) ∣ ((x.val : ℕ) : Int) ^ 2 - a := by
      rw [← ZMod.intCast_zmod_eq_zero_iff_dvd]
      push_cast
      rw [ZMod.natCast_val, ZMod.cast_id', hx]
      simp only [id_eq]
      ring
    cases hf : (List.range (p : Int).toNat).find? (fun x : ℕ => decide ((p : Int) ∣ (x : Int) ^ 2 - a)) with
    | none =>
      rw [List.find?_eq_none] at hf
      have := hf x.val (by rw [List.mem_range]; simpa using ZMod.val_lt x)
      exact absurd hdvd (by simpa using this)
    | some y =>
      have := List.find?_some hf
      simpa using this

/-! ## C02: modular inverse (bigint) -/

/-- `invmod(a,p)` inverts `a` modulo `p` whenever that is possible, and returns 0 otherwise. -/
theorem C02_invmod_big (X : XGcd) (a p : Int) :
    ((∃ x, Spec.Cong p (a * x) 1) → Spec.Cong p (a * invmod X a p) 1) ∧
    ((¬ ∃ x, Spec.Cong p (a * x) 1) → invmod X a p = 0) := by
  have hgcd : (∃ x, Spec.Cong p (a * x) 1) → Int.gcd a p = 1 := by
    rintro ⟨x, t, ht⟩
    rw [← Int.isCoprime_iff_gcd_eq_one]
    exact ⟨x, -t, by linarith⟩
  refine ⟨fun h => invmod_spec X a p (hgcd h), fun h => ?_⟩
  unfold invmod
  simp only
  rw [if_pos]
  intro h1
  apply h
  refine ⟨invmod X a p, invmod_spec X a p ?_⟩
  rw [X.gcd_eq] at h1
  exact_mod_cast h1

example : invmod xgcd0 3 7 = 5 ∧ invmod xgcd0 4 6 = 0 := by decide +kernel

/-! ## C03: Chinese remaindering -/

/-- `chrem(a1,a2,m1,m2)`: the message "No solution" is printed exactly when the congruences have no
common solution, otherwise the value returned is one. -/
theorem C03_chrem (X : XGcd) (a1 a2 m1 m2 : Int) (h1 : m1 ≠ 0) :
    ((chrem X a1 a2 m1 m2).2 = true ↔ ∃ x, Spec.Cong m1 x a1 ∧ Spec.Cong m2 x a2) ∧
    ((chrem X a1 a2 m1 m2).2 = true →
      Spec.Cong m1 (chrem X a1 a2 m1 m2).1 a1 ∧ Spec.Cong m2 (chrem X a1 a2 m1 m2).1 a2) ∧
    ((chrem X a1 a2 m1 m2).2 = false → (chrem X a1 a2 m1 m2).1 = 0) := by
  refine ⟨⟨fun h => ⟨_, chrem_sound X a1 a2 m1 m2 h1 h⟩, fun h => ?_⟩,
    chrem_sound X a1 a2 m1 m2 h1, fun h => ?_⟩
  · by_contra hc
    exact chrem_complete X a1 a2 m1 m2 (by simpa using hc) h
  · unfold chrem at h ⊢
    simp only at h ⊢
    split_ifs at h ⊢
    rfl

/-- For positive moduli the solution returned is the least non-negative one modulo the lcm. -/
theorem C03_chrem_range (X : XGcd) (a1 a2 m1 m2 : Int) (h1 : 0 < m1) (h2 : 0 < m2) :
    0 ≤ (chrem X a1 a2 m1 m2).1 ∧ (chrem X a1 a2 m1 m2).1 < (Int.lcm m1 m2 : Int) := by
  have hl0 : (0 : Int) < (Int.lcm m1 m2 : Int) := by
    exact_mod_cast Int.lcm_pos h1.ne' h2.ne'
  have hl : m1 * (m2.fdiv (X.run m1 m2).1) = (Int.lcm m1 m2 : Int) := by
    rw [X.gcd_eq]
    have hg : (0 : Int) < (Int.gcd m1 m2 : Int) := by
      exact_mod_cast Int.gcd_pos_of_ne_zero_left _ h1.ne'
    obtain ⟨k, hk⟩ := Int.gcd_dvd_right m1 m2
    have e : m2.fdiv (Int.gcd m1 m2 : Int) = k := by
      have := Int.mul_fdiv_cancel_left k hg.ne'
      rwa [← hk] at this
    rw [e]
    have h := Int.gcd_mul_lcm m1 m2
    have h' : (Int.gcd m1 m2 : Int) * (Int.lcm m1 m2 : Int) = m1 * m2 := by
      have : ((Int.gcd m1 m2 * Int.lcm m1 m2 : ℕ) : Int) = ((m1.natAbs * m2.natAbs : ℕ) : Int) := by
        rw [h]
      push_cast at this
      rw [abs_of_pos h1, abs_of_pos h2] at this
      exact this
    apply mul_left_cancel₀ hg.ne'
    rw [h']
    conv_rhs => rw [hk]
    ring
  unfold chrem
  simp only
  split_ifs
  · rw [hl]
    exact ⟨Int.fmod_nonneg_of_pos _ hl0, Int.fmod_lt_of_pos _ hl0⟩
  · exact ⟨le_rfl, hl0⟩

example : chrem xgcd0 2 4 6 10 = (14, true) ∧ chrem xgcd0 2 3 4 6 = (0, false) := by decide +kernel

/-! ## C04: residues (bigint) -/

/-- `mod(a,b)` for `b ≠ 0`: congruent to `a` and in `(-|b|/2, |b|/2]`. -/
theorem C04_mod_big (a b : Int) (hb : b ≠ 0) :
    Spec.Cong b (mod a b) a ∧ -|b| < 2 * mod a b ∧ 2 * mod a b ≤ |b| := by
  refine ⟨mod_dvd_sub a b, ?_⟩
  have hB : 0 < (b.natAbs : Int) := by omega
  have h1 := Int.fmod_nonneg_of_pos a hB
  have h2 := Int.fmod_lt_of_pos a hB
  rw [Int.abs_eq_natAbs]
  unfold mod
  simp only
  split_ifs <;> constructor <;> omega

/-- `posmod(a,b)` for every `b ≠ 0`, of either sign (unlike the `long` version). -/
theorem C04_posmod_big (a b : Int) (hb : b ≠ 0) :
    Spec.Cong b (posmod a b) a ∧ 0 ≤ posmod a b ∧ posmod a b < |b| := by
  rw [posmod_eq a b hb]
  have hB : 0 < |b| := abs_pos.mpr hb
  refine ⟨?_, Int.emod_nonneg _ hB.ne', Int.emod_lt_of_pos _ hB⟩
  have h := Int.dvd_self_sub_emod (x := a) (m := |b|)
  unfold Spec.Cong
  rw [← Int.dvd_neg, neg_sub]
  exact (abs_dvd _ _).mp h

/-- `rounded_division(a,b)` for `b > 0`. -/
theorem C04_rounded_division_big (a b : Int) (hb : 0 < b) :
    Spec.NearestUp a b (roundedDivision a b) := by
  unfold Spec.NearestUp roundedDivision
  have h := Int.fmod_add_mul_fdiv a b
  have h1 := Int.fmod_nonneg_of_pos a hb
  have h2 := Int.fmod_lt_of_pos a hb
  simp only
  have hc := mul_comm b (a.fdiv b)
  split_ifs with h3 h4
  · omega
  · have e : (a.fdiv b + 1) * b = a.fdiv b * b + b := by ring
    rw [e]; constructor <;> omega
  · constructor <;> omega

/-- The `long` and `bigint` versions agree on positive divisors. -/
theorem C04_rounded_division_agree (a b : Int) (hb : 0 < b) :
    roundedDivision a b = Arith.roundedDivision a b :=
  Arith.Props.C04_rounded_division_unique a b _ hb (C04_rounded_division_big a b hb)

example : mod (-7) 10 = 3 ∧ mod 5 (-10) = 5 ∧ posmod (-1) (-5) = 4 ∧
    roundedDivision (-5) 10 = 0 ∧ roundedDivision (-6) 10 = -1 := by decide +kernel

/-! ## C05: quadratic residue symbols (bigint) -/

/-- `legendre(a,b)` is the Jacobi symbol for odd positive `b` (and terminates). -/
theorem C05_legendre_big (a : Int) (b : ℕ) (hb : Odd b) : legendre a b = some (jacobiSym a b) :=
  legendre_eq a b hb

/-- `kronecker(x,y)` is the Kronecker symbol. -/
theorem C05_kronecker_big (x y : Int) : kronecker x y = Spec.kronecker x y := by
  rw [kronecker_eq, Arith.Props.C05_kronecker_long]

example : kronecker 3 2 = -1 ∧ kronecker (-5) 12 = 1 ∧ legendre 2 15 = some 1 := by decide +kernel

/-- `kronecker(const bigint& d, long n)` is right for odd positive `n`. -/
theorem C05_kronecker_big_long_partial (d : Int) (n : ℕ) (hn : Odd n) :
    kroneckerBigLong d n = Spec.kronecker d n := by
  unfold kroneckerBigLong
  rw [Arith.Props.C05_kronecker_long]
  have hn0 : n ≠ 0 := hn.pos.ne'
  have hv : padicValNat 2 n = 0 := by
    apply padicValNat.eq_zero_of_not_dvd
    have := Nat.odd_iff.mp hn
    omega
  have key : ∀ x : Int, Spec.kronecker x n = jacobiSym x n := by
    intro x
    unfold Spec.kronecker
    rw [if_neg (by exact_mod_cast hn0), if_neg (by omega), Int.natAbs_natCast, hv]
    simp
  rw [key, key, jacobiSym.mod_left (mod d n), jacobiSym.mod_left d]
  congr 1
  exact ((Int.modEq_iff_dvd).mpr (mod_dvd_sub d n) : d ≡ mod d n [ZMOD n]).symm

/-- The full statement fails: the reduction of `d` modulo `n` is not legitimate for even or
negative `n`. -/
theorem C05_kronecker_big_long_counterexample :
    ¬ ∀ d n : Int, kroneckerBigLong d n = Spec.kronecker d n := by
  intro h
  have h1 := h 3 2
  rw [← Arith.Props.C05_kronecker_long] at h1
  revert h1
  decide +kernel

/-- Another failure, for an odd negative `n`. -/
theorem C05_kronecker_big_long_negative_counterexample :
    ¬ ∀ d n : Int, n % 2 = 1 → kroneckerBigLong d n = Spec.kronecker d n := by
  intro h
  have h1 := h 2 (-3) (by decide)
  rw [← Arith.Props.C05_kronecker_long] at h1
  revert h1
  decide +kernel

/-! ## C06: valuation (bigint) -/

/-- `val(f,n)` is the exact power of `f` dividing `n`; the error value is returned for `n = 0` or
`|f| < 2`. -/
theorem C06_val_big (f n : Int) :
    (2 ≤ |f| → n ≠ 0 → Spec.ExactPower f n (val f n)) ∧ (n = 0 ∨ |f| < 2 → val f n = 99999) := by
  rw [val_eq]
  exact ⟨Arith.Props.C06_val f n, Arith.Props.C06_val_error f n⟩

/-- `divide_out(a,d)` terminates for `|d| ≥ 2`, `a ≠ 0`, returns the exact power and leaves the
cofactor in `a`. -/
theorem C06_divide_out (a d : Int) (ha : a ≠ 0) (hd : 2 ≤ |d|) :
    ∃ a' e, divideOut a d = some (a', e) ∧ a = d ^ e * a' ∧ ¬ d ∣ a' ∧ Spec.ExactPower d a e := by
  rw [Int.abs_eq_natAbs] at hd
  unfold divideOut
  rw [if_neg ha, if_neg (by omega)]
  obtain ⟨k, h1, h2, h3⟩ := divideOutLoop_spec a d 0 ha (by omega)
  rw [zero_add] at h1
  refine ⟨_, _, rfl, by rw [h1]; exact h2, h3, ?_⟩
  rw [h1]
  exact exact_of_factor (by rintro rfl; simp at hd) h2 h3

/-- `divide_out` never terminates normally for `a ≠ 0` and `d ∈ {0, 1, -1}`. -/
theorem C06_divide_out_bad (a d : Int) (ha : a ≠ 0) (hd : |d| < 2) : divideOut a d = none := by
  rw [Int.abs_eq_natAbs] at hd
  unfold divideOut
  rw [if_neg ha, if_pos (by omega)]

example : divideOut (-40) (-2) = some (5, 3) ∧ val (-2) (-40) = 3 := by decide +kernel

/-! ## C12: perfect squares -/

/-- `isqrt(a,root)` returns 1 exactly for perfect squares. -/
theorem C12_isqrt (a : Int) : (isqrt a).1 = true ↔ ∃ r : Int, a = r ^ 2 := by
  constructor
  · intro h
    exact ⟨(isqrt a).2, by rw [sq]; exact isqrt_sound a h⟩
  · rintro ⟨r, rfl⟩
    have h := isqrt_of_sq r.natAbs
    have e : ((r.natAbs * r.natAbs : ℕ) : Int) = r ^ 2 := by
      rw [← sq]; push_cast; exact sq_abs r
    rw [e] at h
    rw [h]

/-- and then `root` is the non-negative square root. -/
theorem C12_isqrt_root (r : ℕ) : isqrt ((r : Int) ^ 2) = (true, r) := by
  have h := isqrt_of_sq r
  push_cast at h
  rw [← sq] at h
  exact h

/-- `sqrtnr(root,n)` (used on odd parts) leaves the integer square root, square or not. -/
theorem C12_sqrtnr (n : ℕ) (hn : 0 < n) :
    (sqrtnr n).2 ^ 2 ≤ n ∧ n < ((sqrtnr n).2 + 1) ^ 2 ∧ ((sqrtnr n).1 = true ↔ IsSquare n) := by
  have h := sqrtnr_root n hn
  have h1 := Nat.sqrt_le' n
  have h2 := Nat.lt_succ_sqrt' n
  rw [h]
  refine ⟨h1, h2, ?_⟩
  have hd : (sqrtnr n).1 = ((sqrtnr n).2 * (sqrtnr n).2 == n) := rfl
  rw [hd, h, beq_iff_eq]
  constructor
  · intro h3; exact ⟨_, h3.symm⟩
  · rintro ⟨r, rfl⟩
    rw [Nat.sqrt_eq]

example : isqrt 144 = (true, 12) ∧ (isqrt 145).1 = false ∧ (isqrt (-4)).1 = false := by
  decide +kernel

/-! ## C13: modular square roots -/

/-- `sqrt_mod_2_power(x,a,e)`: success means `x^2 ≡ a (mod 2^e)`. -/
theorem C13_sqrt_mod_2_power (a : Int) (e : ℕ) (x : Int) (h : sqrtMod2Power a e = some x) :
    Spec.Cong (2 ^ e) (x ^ 2) a := sqrtMod2Power_sound a e x h

/-- and for odd `a` failure means that there is no root. -/
theorem C13_sqrt_mod_2_power_complete (a : Int) (e : ℕ) (ha : Odd a)
    (h : sqrtMod2Power a e = none) : ¬ ∃ x, Spec.Cong (2 ^ e) (x ^ 2) a :=
  sqrtMod2Power_complete a e ha h

example : sqrtMod2Power 17 7 = some 41 ∧ sqrtMod2Power 5 3 = none := by decide +kernel

/-- `sqrt_mod_p_power(x,a,p,e)`: success means `x^2 ≡ a (mod p^e)`. -/
theorem C13_sqrt_mod_p_power (X : XGcd) (S : SqrRootMod) (a : Int) (p : ℕ) (hp : p.Prime) (e : ℕ)
    (x : Int) (h : sqrtModPPower X S a p e = some x) : Spec.Cong (p ^ e) (x ^ 2) a :=
  sqrtModPPower_sound X S a p hp e x h

/-- and for `a` prime to `p` failure means that there is no root. -/
theorem C13_sqrt_mod_p_power_complete (X : XGcd) (S : SqrRootMod) (a : Int) (p : ℕ) (hp : p.Prime)
    (e : ℕ) (ha : ¬ (p : Int) ∣ a) (h : sqrtModPPower X S a p e = none) :
    ¬ ∃ x, Spec.Cong (p ^ e) (x ^ 2) a := sqrtModPPower_complete X S a p hp e ha h

example : sqrtModPPower xgcd0 sqr0 2 7 3 = some 108 ∧ sqrtModPPower xgcd0 sqr0 3 7 2 = none := by
  decide +kernel

/-- `sqrt_mod_m(x,a,m,mpdivs)`: success means `x^2 ≡ a (mod m)`. -/
theorem C13_sqrt_mod_m (X : XGcd) (S : SqrRootMod) (a m : Int) (ps : List Int) (hm : m ≠ 0)
    (hps : Spec.IsPrimeDivisorList m ps) (x : Int) (h : sqrtModM X S a m ps = some x) :
    Spec.Cong m (x ^ 2) a := by
  unfold sqrtModM at h
  split_ifs at h with h1 h2 h3
  · subst h1; exact one_dvd _
  · cases h; subst h2; simp [Spec.Cong]
  · cases h; subst h3; simp [Spec.Cong]
  · have hpr : ∀ p ∈ ps, 0 < p ∧ Prime p := fun p hp =>
      ⟨((hps.mem p).mp hp).1, ((hps.mem p).mp hp).2.1⟩
    have := sqrtMLoop_sound X S a m (ps.headD 0) ps 0 1 hpr hps.nodup one_ne_zero
      (fun p _ => isCoprime_one_left) (fun hf => ⟨rfl, by cases ps <;> simp_all⟩) (one_dvd _) x h
    rw [one_mul, divProd_val_eq hm hpr hps.nodup
      (fun p h0 h1 h2 => (hps.mem p).mpr ⟨h0, h1, h2⟩), abs_dvd] at this
    exact this

/-- and for `a` prime to `m` failure means that there is no root. -/
theorem C13_sqrt_mod_m_complete (X : XGcd) (S : SqrRootMod) (a m : Int) (ps : List Int) (hm : m ≠ 0)
    (hps : Spec.IsPrimeDivisorList m ps) (hco : IsCoprime a m) (h : sqrtModM X S a m ps = none) :
    ¬ ∃ x, Spec.Cong m (x ^ 2) a := by
  unfold sqrtModM at h
  split_ifs at h with h1 h2 h3
  have hpr : ∀ p ∈ ps, 0 < p ∧ Prime p ∧ (p ∣ m → ¬ p ∣ a) := fun p hp =>
    ⟨((hps.mem p).mp hp).1, ((hps.mem p).mp hp).2.1, fun hm' ha =>
      ((hps.mem p).mp hp).2.1.not_isUnit (hco.isUnit_of_dvd' ha hm')⟩
  obtain ⟨p, hp, hz⟩ := sqrtMLoop_complete X S a m (ps.headD 0) ps 0 1 hpr h
  rintro ⟨x, hx⟩
  apply hz
  refine ⟨x, dvd_trans ?_ hx⟩
  have hp2 : 2 ≤ |p| := by
    have h1 := Int.prime_iff_natAbs_prime.mp (hpr p hp).2.1
    have := h1.two_le
    rw [Int.abs_eq_natAbs]; exact_mod_cast this
  exact (val_spec p m hp2 hm).1

example : sqrtModM xgcd0 sqr0 19 45 [3, 5] = some 37 := by decide +kernel

/-- `modsqrt(a,bplist,x)`: decides whether `a` is a square modulo the product of the primes, and
finds a root. -/
theorem C13_modsqrt (X : XGcd) (S : SqrRootMod) (a : Int) (ps : List Int)
    (hpr : ∀ p ∈ ps, 0 < p ∧ Prime p) (hnd : ps.Nodup) :
    (∀ x, modsqrt X S a ps = some x → Spec.Cong ps.prod (x ^ 2) a) ∧
    (modsqrt X S a ps = none → ¬ ∃ x, Spec.Cong ps.prod (x ^ 2) a) := by
  have h := modsqrtLoop_spec X S a ps 0 1 hpr hnd (fun p _ => isCoprime_one_left) (one_dvd _)
  refine ⟨fun x hx => by simpa [Spec.Cong] using h.1 x hx, fun hn => ?_⟩
  obtain ⟨p, hp, hz⟩ := h.2 hn
  rintro ⟨x, hx⟩
  exact hz ⟨x, (List.dvd_prod hp).trans hx⟩

example : modsqrt xgcd0 sqr0 4 [3, 7, 2] = some 16 := by decide +kernel
example : modsqrt xgcd0 sqr0 5 [3, 7] = none := by decide +kernel

/-! ## C14: square-free parts -/

/-- `sqfdecomp(a,plist,a1,a2)` for a list of distinct primes which contains all primes dividing `a`: `a = a1 a2^2`,
`a1` square-free, `a2 > 0`, and the list returned consists of the primes dividing `a1`, each once. -/
theorem C14_sqfdecomp_factorbase (a : Int) (ps : List Int) (ha : a ≠ 0) (hpr : ∀ p ∈ ps, 0 < p ∧ Prime p)
    (hnd : ps.Nodup) (hall : ∀ p, 0 < p → Prime p → p ∣ a → p ∈ ps) :
    let r := sqfdecomp a ps
    a = r.1 * r.2.1 ^ 2 ∧ Squarefree r.1 ∧ 0 < r.2.1 ∧ Spec.IsPrimeDivisorList r.1 r.2.2 := by
  have hpos : ∀ p ∈ ps, 0 < p := fun p hp => (hpr p hp).1
  have hprime : ∀ p ∈ ps, Prime p := fun p hp => (hpr p hp).2
  have hs := sqfLoop_spec a ps 1 1 []
  rw [one_mul, one_mul, List.nil_append] at hs
  set A := Arith.divProd (fun p => val p a % 2) ps with hA
  set B := Arith.divProd (fun p => val p a / 2) ps with hB
  have hAB : A * B ^ 2 = |a| := by
    rw [hA, hB, divProd_mul, ← divProd_val_eq ha hpr hnd
      hall]
    congr 1
    funext p
    exact Nat.mod_add_div _ _
  have hA0 : 0 < A := divProd_pos _ ps hpos
  have hsqf : Squarefree A := squarefree_divProd _ (fun p => by omega) ps hpr hnd
  have hlist : ∀ p, p ∈ ps.filter (fun p => val p a % 2 = 1) ↔ 0 < p ∧ Prime p ∧ p ∣ A := by
    intro p
    rw [List.mem_filter, decide_eq_true_eq]
    constructor
    · rintro ⟨h1, h2⟩
      refine ⟨hpos p h1, hprime p h1, ?_⟩
      have := (Arith.pow_dvd_divProd (e := fun p => val p a % 2) hpos hprime hnd (hprime p h1)
        (hpos p h1) 0).mpr ⟨h1, by omega⟩
      simpa using this
    · rintro ⟨h0, h1, h2⟩
      have := (Arith.pow_dvd_divProd (e := fun p => val p a % 2) hpos hprime hnd h1 h0 0).mp
        (by simpa using h2)
      exact ⟨this.1, by have := this.2; omega⟩
  simp only [sqfdecomp, hs]
  split_ifs with hneg
  · refine ⟨?_, (Associated.neg_left (Associated.refl A)).squarefree_iff.mpr hsqf,
      divProd_pos _ ps hpos, hnd.filter _, fun p => ?_⟩
    · rw [abs_of_neg hneg] at hAB; linarith
    · rw [hlist, dvd_neg]
  · refine ⟨?_, hsqf, divProd_pos _ ps hpos, hnd.filter _, hlist⟩
    rw [abs_of_nonneg (by omega)] at hAB; exact hAB.symm

/-- `sqfdecomp(a,plist,a1,a2)` for the list of the primes dividing `a`. -/
theorem C14_sqfdecomp (a : Int) (ps : List Int) (ha : a ≠ 0) (hps : Spec.IsPrimeDivisorList a ps) :
    let r := sqfdecomp a ps
    a = r.1 * r.2.1 ^ 2 ∧ Squarefree r.1 ∧ 0 < r.2.1 ∧ Spec.IsPrimeDivisorList r.1 r.2.2 :=
  C14_sqfdecomp_factorbase a ps ha (fun p hp => ⟨((hps.mem p).mp hp).1, ((hps.mem p).mp hp).2.1⟩) hps.nodup
    fun p h0 h1 h2 => (hps.mem p).mpr ⟨h0, h1, h2⟩

example : sqfdecomp (-360) [2, 3, 5] = (-10, 6, [2, 5]) := by decide +kernel

/-- `rusin_lem3(a,b,...)`: `a = c1^2 m1 m3`, `b = c2^2 m2 m3`, with `m1,m2,m3` pairwise coprime and
`m3, c1, c2 > 0`; in particular the loop terminates. -/
theorem C14_rusin_lem3 (a b : Int) (ha : a ≠ 0) (hb : b ≠ 0) :
    let s := rusinLem3 a b
    a = s.c1 ^ 2 * s.m1 * s.m3 ∧ b = s.c2 ^ 2 * s.m2 * s.m3 ∧ 0 < s.m3 ∧ 0 < s.c1 ∧ 0 < s.c2 ∧
      IsCoprime s.m1 s.m2 ∧ IsCoprime s.m1 s.m3 ∧ IsCoprime s.m2 s.m3 := by
  simp only [rusinLem3, ha, hb, or_self, if_false]
  have hinit : Lem3.Inv a b ⟨a, b, 1, 1, 1, 3⟩ 0 := by
    refine ⟨?_, ?_, ?_, ?_, ?_, ?_, ?_, ?_, ?_⟩ <;> simp
  obtain ⟨ph, h, hc⟩ := Lem3.run_inv ha hb ⟨a, b, 1, 1, 1, 3⟩ 0 hinit
  obtain ⟨g1, g2, g3⟩ := h.h3 hc
  exact ⟨h.ha, h.hb, h.hm3, h.hc1, h.hc2, Int.isCoprime_iff_gcd_eq_one.mpr g1,
    Int.isCoprime_iff_gcd_eq_one.mpr g2, Int.isCoprime_iff_gcd_eq_one.mpr g3⟩

/-! ## C09: rational reconstruction -/

theorem gauss_init (nn n m : Int) (h : m ∣ nn - n) : (GState.init nn 1 m 0).Inv (-m) m n := by
  refine ⟨?_, rfl, rfl, ?_, ?_⟩
  · simp [GState.init]
  · simpa [GState.init] using h
  · simp [GState.init]

/-- `modrat(long n, long m, a, b)` for `m > 0` terminates; the pair returned is non-zero and
satisfies `a ≡ n b (mod m)`; the flag says whether both are at most `sqrt(m/2)`, and if so the
denominator is not zero. -/
theorem C09_modrat_sound (n m : Int) (hm : 0 < m) :
    ∃ a b ok, modratLong n m = some (a, b, ok) ∧ Spec.Cong m a (n * b) ∧ (a, b) ≠ (0, 0) ∧
      (ok = true ↔ 2 * a ^ 2 ≤ m ∧ 2 * b ^ 2 ≤ m) ∧ (ok = true → b ≠ 0) := by
  have hmod : m ∣ Arith.mod n m - n := (Arith.Props.C04_mod n m hm.ne').1
  obtain ⟨r, hr, hinv⟩ := GState.loop_inv (by omega) true _ (gauss_init _ _ _ hmod)
  have hok : (decide (2 * (r.a * r.a) ≤ m) && decide (2 * (r.b * r.b) ≤ m)) = true ↔
      2 * r.a ^ 2 ≤ m ∧ 2 * r.b ^ 2 ≤ m := by
    simp only [Bool.and_eq_true, decide_eq_true_eq, sq]
  refine ⟨r.a, r.b, _, by simp only [modratLong, gaussReduce, hr, Option.map_some], hinv.la, ?_,
    hok, fun h hb => ?_⟩
  · intro h
    have h1 : r.a = 0 := congrArg Prod.fst h
    have h2 : r.b = 0 := congrArg Prod.snd h
    have := hinv.det
    rw [h1, h2] at this
    omega
  · have h1 := (hok.mp h).1
    have h2 := hinv.la
    rw [hb, mul_zero, sub_zero] at h2
    have ha : r.a ≠ 0 := by
      intro h3
      have := hinv.det
      rw [h3, hb] at this
      omega
    have h3 : m ≤ |r.a| := by
      have := Int.le_of_dvd (abs_pos.mpr ha) ((dvd_abs _ _).mpr h2)
      exact this
    have h4 : m * m ≤ r.a ^ 2 := by
      rw [← sq_abs, sq]; exact mul_le_mul h3 h3 hm.le (abs_nonneg _)
    nlinarith

theorem two_y_contra {m t : Int} (_ : 2 < m) (h2 : 2 ≤ t) (h : m ≤ 2 * t) (he : 2 * t ^ 2 = m) :
    False := by nlinarith

theorem eq_of_bounds {P S m : Int} (hm : 0 < m) (hP : 0 ≤ P) (h1 : P ≤ S) (h2 : S ≤ m)
    (h3 : m ^ 2 ≤ P * S) : P = m ∧ S = m := by
  have hPm : P = m := by
    by_contra hne
    have h : P < m := by omega
    nlinarith
  exact ⟨hPm, by omega⟩

/-- If some `x/y ≡ n (mod m)` has `|x|,|y| ≤ sqrt(m/2)` then `modrat` succeeds, and (for `m > 2`)
the fraction returned equals `x/y`. -/
theorem C09_modrat_complete (n m : Int) (hm : 0 < m) (x y : Int) (hy : y ≠ 0)
    (hxy : Spec.Cong m x (n * y)) (hx2 : 2 * x ^ 2 ≤ m) (hy2 : 2 * y ^ 2 ≤ m) :
    ∃ a b, modratLong n m = some (a, b, true) ∧ (2 < m → a * y = x * b) := by
  have hmod : m ∣ Arith.mod n m - n := (Arith.Props.C04_mod n m hm.ne').1
  have hi := gauss_init _ _ _ hmod
  obtain ⟨r, hr, hinv⟩ := GState.loop_inv (by omega) true _ hi
  obtain ⟨hQ, q1, q2, q3⟩ := GState.loop_reduced _ hi rfl r hr
  have hP := hinv.P
  have hR := hinv.R
  have hdet := hinv.det
  -- coordinates in the basis
  have hu : m ∣ x * r.d - y * r.c := by
    have h1 := (hxy.mul_left r.d)
    have h2 := (hinv.lc.mul_left y)
    have e : x * r.d - y * r.c = r.d * (x - n * y) - y * (r.c - n * r.d) := by ring
    rw [e]; exact dvd_sub h1 h2
  have hv : m ∣ r.a * y - r.b * x := by
    have h1 := (hxy.mul_left r.b)
    have h2 := (hinv.la.mul_left y)
    have e : r.a * y - r.b * x = y * (r.a - n * r.b) - r.b * (x - n * y) := by ring
    rw [e]; exact dvd_sub h2 h1
  obtain ⟨u, hu⟩ := hu
  obtain ⟨v, hv⟩ := hv
  have ex : x = -u * r.a + -v * r.c := by
    have : m * x = m * (-u * r.a + -v * r.c) := by
      linear_combination (-r.a) * hu + (-r.c) * hv + x * hdet
    exact mul_left_cancel₀ hm.ne' this
  have ey : y = -u * r.b + -v * r.d := by
    have : m * y = m * (-u * r.b + -v * r.d) := by
      linear_combination (-r.b) * hu + (-r.d) * hv + y * hdet
    exact mul_left_cancel₀ hm.ne' this
  have huv : -u ≠ 0 ∨ -v ≠ 0 := by
    by_contra hc
    push Not at hc
    rw [hc.1, hc.2] at ey
    simp at ey
    exact hy ey
  have hmin := reduced_min (by rw [hP]; nlinarith [mul_self_nonneg r.a, mul_self_nonneg r.b])
    q1 q2 q3 huv
  have hS : x ^ 2 + y ^ 2 = -u * -u * r.P + 2 * -u * -v * r.Q + -v * -v * r.R := by
    rw [hP, hQ, hR, ex, ey]; ring
  rw [← hS] at hmin
  have key : (2 * r.a ^ 2 ≤ m ∧ 2 * r.b ^ 2 ≤ m) ∧ (2 < m → r.a * y = x * r.b) := by
    by_cases hv0 : v = 0
    · subst hv0
      have hu0 : u ≠ 0 := by simpa using huv
      have ex' : x = -u * r.a := by simpa using ex
      have ey' : y = -u * r.b := by simpa using ey
      have hu1 : 1 ≤ u ^ 2 := by
        have : 0 < u ^ 2 := by positivity
        omega
      refine ⟨⟨?_, ?_⟩, fun _ => by rw [ex', ey']; ring⟩
      · have : x ^ 2 = u ^ 2 * r.a ^ 2 := by rw [ex']; ring
        nlinarith [sq_nonneg r.a]
      · have : y ^ 2 = u ^ 2 * r.b ^ 2 := by rw [ey']; ring
        nlinarith [sq_nonneg r.b]
    · have hv1 : 1 ≤ v ^ 2 := by
        have : 0 < v ^ 2 := by positivity
        omega
      have hlag : (r.a * y - r.b * x) ^ 2 + (r.a * x + r.b * y) ^ 2 = r.P * (x ^ 2 + y ^ 2) := by
        rw [hP]; ring
      rw [hv] at hlag
      have hPnn : 0 ≤ r.P := by rw [hP]; nlinarith [mul_self_nonneg r.a, mul_self_nonneg r.b]
      have hSm : x ^ 2 + y ^ 2 ≤ m := by omega
      have hbig : m ^ 2 ≤ (m * v) ^ 2 := by 
        rw [mul_pow]; exact le_mul_of_one_le_right (sq_nonneg m) hv1
      have hprod : r.P * (x ^ 2 + y ^ 2) ≤ m ^ 2 := by
        rw [sq m]
        exact mul_le_mul (hmin.trans hSm) hSm (by positivity) hm.le
      have h0nn := sq_nonneg (r.a * x + r.b * y)
      have h0 : (r.a * x + r.b * y) ^ 2 = 0 := by omega
      have h0' : r.a * x + r.b * y = 0 := by simpa using h0
      have hPS : m ^ 2 ≤ r.P * (x ^ 2 + y ^ 2) := by omega
      obtain ⟨hPm, hSm'⟩ := eq_of_bounds hm hPnn hmin hSm hPS
      have hx' : 2 * x ^ 2 = m := by omega
      have hy' : 2 * y ^ 2 = m := by omega
      have hab : r.a ^ 2 + r.b ^ 2 = m := by rw [← hPm, hP]; ring
      have hax : r.a ^ 2 * x ^ 2 = r.b ^ 2 * y ^ 2 := by
        have : r.a * x = -(r.b * y) := by linarith
        rw [← mul_pow, this]; ring
      have hxx : x ^ 2 = y ^ 2 := by omega
      have hyp : y ^ 2 ≠ 0 := pow_ne_zero _ hy
      have hab' : r.a ^ 2 = r.b ^ 2 := by
        rw [hxx] at hax; exact mul_right_cancel₀ hyp hax
      refine ⟨⟨by omega, by omega⟩, fun hm2 => ?_⟩
      exfalso
      -- m divides 2y, but 2y^2 = m
      have h2y : m ∣ 2 * y := by
        have hbx : r.b ^ 2 = y ^ 2 := by omega
        have la := hinv.la
        rcases sq_eq_sq_iff_eq_or_eq_neg.mp hxx with e1 | e1 <;>
        rcases sq_eq_sq_iff_eq_or_eq_neg.mp hab' with e2 | e2 <;>
        rcases sq_eq_sq_iff_eq_or_eq_neg.mp hbx with e3 | e3
        · rw [e2, e3, e1] at h0'; exact absurd (by linarith : y * y = 0) (mul_self_ne_zero.mpr hy)
        · rw [e2, e3, e1] at h0'; exact absurd (by linarith : y * y = 0) (mul_self_ne_zero.mpr hy)
        · rw [e2, e3] at la
          unfold Spec.Cong at hxy
          rw [e1] at hxy
          have := dvd_sub hxy la
          have e : y - n * y - (-y - n * y) = 2 * y := by ring
          rwa [e] at this
        · rw [e2, e3] at la
          unfold Spec.Cong at hxy
          rw [e1] at hxy
          have := dvd_add hxy la
          have e : y - n * y + (- -y - n * -y) = 2 * y := by ring
          rwa [e] at this
        · rw [e2, e3] at la
          unfold Spec.Cong at hxy
          rw [e1] at hxy
          have := dvd_sub la hxy
          have e : y - n * y - (-y - n * y) = 2 * y := by ring
          rwa [e] at this
        · rw [e2, e3] at la
          unfold Spec.Cong at hxy
          rw [e1] at hxy
          have := dvd_add hxy la
          have e : -y - n * y + (-y - n * -y) = -(2 * y) := by ring
          rw [e, dvd_neg] at this
          exact this
        · rw [e2, e3, e1] at h0'; exact absurd (by linarith : y * y = 0) (mul_self_ne_zero.mpr hy)
        · rw [e2, e3, e1] at h0'; exact absurd (by linarith : y * y = 0) (mul_self_ne_zero.mpr hy)
      have hle : m ≤ |2 * y| := Int.le_of_dvd (abs_pos.mpr (by omega)) ((dvd_abs _ _).mpr h2y)
      rw [abs_mul, abs_two] at hle
      have hys : |y| ^ 2 = y ^ 2 := sq_abs y
      have : 2 ≤ |y| := by
        by_contra hc
        have hy1 : |y| = 1 := by
          have := abs_pos.mpr hy
          omega
        rw [hy1] at hys
        omega
      exact two_y_contra hm2 this hle (by rw [hys]; exact hy')
  refine ⟨r.a, r.b, ?_, key.2⟩
  have hok : (decide (2 * (r.a * r.a) ≤ m) && decide (2 * (r.b * r.b) ≤ m)) = true := by
    simp only [Bool.and_eq_true, decide_eq_true_eq]
    rw [← sq, ← sq]
    exact key.1
  simp only [modratLong, gaussReduce, hr, Option.map_some, hok]

/-- Hypotheses met: `-2/5 ≡ 20 (mod 51)`. -/
example : Spec.Cong 51 (-2) (20 * 5) ∧ 2 * (-2 : Int) ^ 2 ≤ 51 ∧ 2 * (5 : Int) ^ 2 ≤ 51 := by
  unfold Spec.Cong; decide

/-- The `bigint` version: soundness only. `modrat(bigint n, bigint m, a, b)` terminates for `m > 0`,
the pair is non-zero with `a ≡ n b (mod m)` and success means both are at most `sqrt(m/2)`.
Missing with respect to the full statement: completeness, which is false, see the next theorem. -/
theorem C09_modrat_big_partial (n m : Int) (hm : 0 < m) :
    ∃ a b ok, modratBig n m = some (a, b, ok) ∧ Spec.Cong m a (n * b) ∧ (a, b) ≠ (0, 0) ∧
      (ok = true → 2 * a ^ 2 ≤ m ∧ 2 * b ^ 2 ≤ m) := by
  obtain ⟨r, hr, hinv⟩ := GState.loop_inv (by omega) false _ (gauss_init _ _ _ (mod_dvd_sub n m))
  refine ⟨r.a, r.b, decide (r.a.natAbs ≤ Nat.sqrt (m / 2).toNat) &&
      decide (r.b.natAbs ≤ Nat.sqrt (m / 2).toNat),
    by simp only [modratBig, gaussReduce, hr, Option.map_some], hinv.la, ?_,
    fun h => ?_⟩
  · intro h
    have h1 : r.a = 0 := congrArg Prod.fst h
    have h2 : r.b = 0 := congrArg Prod.snd h
    have := hinv.det
    rw [h1, h2] at this
    omega
  · simp only [Bool.and_eq_true, decide_eq_true_eq] at h
    have key : ∀ t : Int, t.natAbs ≤ Nat.sqrt (m / 2).toNat → 2 * t ^ 2 ≤ m := by
      intro t ht
      have h1 := Nat.mul_self_le_mul_self ht
      have h2 := h1.trans (Nat.sqrt_le _)
      have h3 : ((t.natAbs * t.natAbs : ℕ) : Int) ≤ ((m / 2).toNat : Int) := by exact_mod_cast h2
      push_cast at h3
      rw [abs_mul_abs_self, ← sq] at h3
      omega
    exact ⟨key _ h.1, key _ h.2⟩

/-- The values of the `bigint` version on `n = 20`, `m = 51`. -/
theorem modratBig_20_51 : modratBig 20 51 = some (-9, -3, false) := by
  unfold modratBig gaussReduce
  repeat (first
    | rw [GState.loop]
      simp [GState.init, GState.shift, GState.invert, mod, Arith.roundedDivision])
  decide +kernel

/-- Rational reconstruction fails in the `bigint` version: `20 ≡ -2/5 (mod 51)` and
`2, 5 ≤ sqrt(51/2)`, but `modrat` reports failure.  (The cause: `gauss_reduce` for `bigint` does not
negate the cross term when it exchanges the basis vectors; the `long` version does.) -/
theorem C09_modrat_big_counterexample :
    ¬ ∀ n m x y : Int, 2 < m → y ≠ 0 → Spec.Cong m x (n * y) → 2 * x ^ 2 ≤ m → 2 * y ^ 2 ≤ m →
      ∃ a b, modratBig n m = some (a, b, true) ∧ a * y = x * b := by
  intro h
  obtain ⟨a, b, h1, -⟩ := h 20 51 (-2) 5 (by decide) (by decide) (by unfold Spec.Cong; decide)
    (by decide) (by decide)
  rw [modratBig_20_51] at h1
  simp at h1

end Eclib.Marith.Props
