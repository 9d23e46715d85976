import Verif.Stoll.Loops
import Mathlib.Data.Nat.Sqrt

/-!
# C99, C100: Stoll's sieve
-/

namespace Eclib.Stoll

open Marith (isqrt)

theorem halfMask_spec : ∀ j < 64, halfMask.getLsbD j = decide (j % 2 = 1) := by decide +kernel

theorem and_set_bit {l : List W} {k : ℕ} {x : W} {t j : ℕ} (ht : t < l.length) :
    ((l.set k (l.getD k 0 &&& x)).getD t 0).getLsbD j = true ↔
      (l.getD t 0).getLsbD j = true ∧ (t = k → x.getLsbD j = true) := by
  by_cases h : k = t
  · subst h
    rw [getD_set_self ht, BitVec.getLsbD_and, Bool.and_eq_true]
    simp
  · rw [getD_set_ne h]
    exact ⟨fun e => ⟨e, fun h' => absurd h'.symm h⟩, fun e => e.1⟩

theorem surv_spec {b : ℕ} {odd : Bool} {low high w0 w1 wl wh : ℤ} (hl : 64 * wl ≤ low ∧ low < 64 * wl + 64)
    (hh : 64 * wh - 64 < high ∧ high ≤ 64 * wh) (h0 : wl ≤ w0) (h1 : w0 < w1) (h2 : w1 ≤ wh) (s0 s1 s2 : List W)
    (e0 : List.replicate (w1 - w0).toNat (if odd = false ∧ b % 2 = 0 then halfMask else BitVec.allOnes 64) = s0)
    (e1 : (if w0 = wl then s0.set 0 (s0.getD 0 0 &&& (BitVec.allOnes 64 <<< (low - 64 * wl).toNat)) else s0) = s1)
    (e2 : (if w1 = wh then s1.set ((w1 - w0).toNat - 1) (s1.getD ((w1 - w0).toNat - 1) 0 &&&
      (BitVec.allOnes 64 >>> (64 * wh - high).toNat)) else s1) = s2) :
    s2.length = (w1 - w0).toNat ∧ ∀ t < s2.length, ∀ j < 64, ((s2.getD t 0).getLsbD j = true ↔
      (odd = false ∧ b % 2 = 0 → j % 2 = 1) ∧ low ≤ 64 * (w0 + t) + j ∧ 64 * (w0 + t) + j < high) := by
  have l0 : s0.length = (w1 - w0).toNat := by rw [← e0, List.length_replicate]
  have l1 : s1.length = s0.length := by rw [← e1]; split_ifs <;> simp
  have l2 : s2.length = s1.length := by rw [← e2]; split_ifs <;> simp
  refine ⟨l2.trans (l1.trans l0), fun t ht j hj => ?_⟩
  have b0 : (s0.getD t 0).getLsbD j = true ↔ (odd = false ∧ b % 2 = 0 → j % 2 = 1) := by
    rw [← e0, List.getD_eq_getElem?_getD, List.getElem?_replicate, if_pos (by omega), Option.getD_some]
    split_ifs with h
    · rw [halfMask_spec j hj]; simp [h]
    · rw [BitVec.getLsbD_allOnes]; simp [hj, h]
  have b1 : (s1.getD t 0).getLsbD j = true ↔ (odd = false ∧ b % 2 = 0 → j % 2 = 1) ∧ low ≤ 64 * (w0 + t) + j := by
    rw [← b0, ← e1]
    split_ifs with h
    · rw [and_set_bit (by omega)]
      refine and_congr_right fun _ => ?_
      have hb : (BitVec.allOnes 64 <<< (low - 64 * wl).toNat).getLsbD j = true ↔ (low - 64 * wl).toNat ≤ j := by
        rw [BitVec.getLsbD_shiftLeft, BitVec.getLsbD_allOnes]
        simp only [hj, decide_true, Bool.true_and, Bool.and_eq_true, Bool.not_eq_true', decide_eq_false_iff_not,
          decide_eq_true_eq]
        omega
      rw [hb]
      constructor
      · intro k
        by_cases ht0 : t = 0
        · have := k ht0; omega
        · omega
      · intro k ht0; omega
    · exact ⟨fun k => ⟨k, by omega⟩, fun k => k.1⟩
  have b2 : (s2.getD t 0).getLsbD j = true ↔ (s1.getD t 0).getLsbD j = true ∧ 64 * (w0 + t) + j < high := by
    rw [← e2]
    split_ifs with h
    · rw [and_set_bit (by omega)]
      refine and_congr_right fun _ => ?_
      have hb : (BitVec.allOnes 64 >>> (64 * wh - high).toNat).getLsbD j = true ↔ (64 * wh - high).toNat + j < 64 := by
        rw [BitVec.getLsbD_ushiftRight, BitVec.getLsbD_allOnes]
        simp
      rw [hb]
      constructor
      · intro k
        by_cases ht0 : t = (w1 - w0).toNat - 1
        · have := k ht0; omega
        · omega
      · intro k ht0; omega
    · exact ⟨fun k => ⟨k, by omega⟩, fun k => k.1⟩
  rw [b2, b1, and_assoc]

theorem chunks_ext {f : Poly} (h2 : 2 ≤ f.deg) {ps1 ps2 : List ℕ} (hps1 : ∀ p ∈ ps1, p ∈ primes) (hps : ∀ p ∈ ps2, p ∈ primes)
    {asz : ℕ} (hasz : 0 < asz) (b : ℕ) (odd : Bool) {low high wl wh : ℤ} (hl : 64 * wl ≤ low ∧ low < 64 * wl + 64)
    (hh : 64 * wh - 64 < high ∧ high ≤ 64 * wh) (n : ℕ) (w0 : ℤ) (h0 : wl ≤ w0) (hn : wh - w0 ≤ n) (st : St) :
    Ext f (Val f b odd fun n => low ≤ n ∧ n < high)
      (Tgt f b odd fun n => 64 * w0 ≤ n ∧ (low ≤ n ∧ n < high) ∧ (odd = false ∧ b % 2 = 0 → n % 2 = 1)) st
      (chunks f ps1 ps2 asz b odd low high wl wh n w0 st) := by
  induction n generalizing w0 st with
  | zero =>
    refine Ext.refl st ?_
    rintro - a b' ⟨-, n, ⟨h1, h2, -⟩, -⟩
    omega
  | succ n ih =>
    rw [chunks]
    by_cases hw : w0 < wh
    swap
    · rw [if_neg hw]
      refine Ext.refl st ?_
      rintro - a b' ⟨-, n, ⟨h1, h2, -⟩, -⟩
      omega
    rw [if_pos hw]
    obtain ⟨w1, hw1⟩ : ∃ x, (if w0 + asz > wh then wh else w0 + asz) = x := ⟨_, rfl⟩
    rw [hw1]
    have k1 : w0 < w1 ∧ w1 ≤ wh ∧ w1 ≤ w0 + asz ∧ (w1 = wh ∨ w1 = w0 + asz) := by
      rw [← hw1]; split_ifs <;> omega
    obtain ⟨s0, hs0⟩ : ∃ x, List.replicate (w1 - w0).toNat (if odd = false ∧ b % 2 = 0 then halfMask else BitVec.allOnes 64) = x :=
      ⟨_, rfl⟩
    simp only [hs0]
    obtain ⟨s1, hs1⟩ : ∃ x, (if w0 = wl then s0.set 0 (s0.getD 0 0 &&& (BitVec.allOnes 64 <<< (low - 64 * wl).toNat)) else s0) = x :=
      ⟨_, rfl⟩
    simp only [hs1]
    obtain ⟨s2, hs2⟩ : ∃ x, (if w1 = wh then s1.set ((w1 - w0).toNat - 1) (s1.getD ((w1 - w0).toNat - 1) 0 &&&
      (BitVec.allOnes 64 >>> (64 * wh - high).toNat)) else s1) = x := ⟨_, rfl⟩
    simp only [hs2]
    obtain ⟨l2, b2⟩ := surv_spec hl hh h0 k1.1 k1.2.1 s0 s1 s2 hs0 hs1 hs2
    have e := sift0_ext h2 hps1 hps b odd k1.1.le s2 l2 st (B := fun n => low ≤ n ∧ n < high)
      (fun t ht j hj hb => ((b2 t ht j hj).mp hb).2)
    obtain ⟨st1, hst1⟩ : ∃ x, sift0 f ps1 ps2 b odd w0 w1 s2 st = x := ⟨_, rfl⟩
    rw [hst1] at e ⊢
    have e' : Ext f (Val f b odd fun n => low ≤ n ∧ n < high)
        (Tgt f b odd fun n => (64 * w0 ≤ n ∧ n < 64 * w1) ∧ (low ≤ n ∧ n < high) ∧ (odd = false ∧ b % 2 = 0 → n % 2 = 1)) st st1 := by
      refine e.mono (fun _ => id) ?_
      rintro a b' ⟨rfl, m, ⟨⟨m1, m2⟩, m3, m4⟩, m5⟩
      have ht : ((m - 64 * w0) / 64).toNat < s2.length := by omega
      have hj : ((m - 64 * w0) % 64).toNat < 64 := by omega
      refine ⟨rfl, m, ⟨_, ht, _, hj, by omega, (b2 _ ht _ hj).mpr ⟨fun hc => ?_, ?_, ?_⟩⟩, m5⟩
      · have := m4 hc; omega
      · omega
      · omega
    by_cases hst : st1.halt = true
    · rw [if_pos hst]
      exact ⟨e'.sub, e'.new, e'.halt, fun h => absurd h (by rw [hst]; simp), e'.keep⟩
    · rw [if_neg hst]
      refine (e'.trans (ih (w0 + asz) (by omega) (by omega) st1)).mono (fun _ => id) ?_
      rintro a b' ⟨rfl, m, ⟨m1, m3, m4⟩, m5⟩
      by_cases hm : m < 64 * w1
      · exact Or.inl ⟨rfl, m, ⟨⟨m1, hm⟩, m3, m4⟩, m5⟩
      · exact Or.inr ⟨rfl, m, ⟨by omega, m3, m4⟩, m5⟩

/-- the bits examined for the interval `[l, h]` -/
def Bits (odd : Bool) (lh : ℤ × ℤ) (n : ℤ) : Prop :=
  if odd = true then lh.1 / 2 ≤ n ∧ n < lh.2 / 2 else lh.1 ≤ n ∧ n ≤ lh.2

theorem siftInt_ext {f : Poly} (h2 : 2 ≤ f.deg) {ps1 ps2 : List ℕ} (hps1 : ∀ p ∈ ps1, p ∈ primes) (hps : ∀ p ∈ ps2, p ∈ primes)
    {asz : ℕ} (hasz : 0 < asz) (b : ℕ) (odd : Bool) (lh : ℤ × ℤ) (st : St) :
    Ext f (Val f b odd (Bits odd lh)) (Tgt f b odd fun n => Bits odd lh n ∧ (odd = false ∧ b % 2 = 0 → n % 2 = 1)) st
      (siftInt f ps1 ps2 asz b odd st lh) := by
  unfold siftInt
  by_cases hh : st.halt = true
  · rw [if_pos hh]; exact Ext.refl st (by simp [hh])
  rw [if_neg hh]
  obtain ⟨low, hlo⟩ : ∃ x, (if odd = true then lh.1 / 2 else lh.1) = x := ⟨_, rfl⟩
  obtain ⟨high, hhi⟩ : ∃ x, (if odd = true then (lh.2 + 1 - 1) / 2 else lh.2 + 1) = x := ⟨_, rfl⟩
  simp only [hlo, hhi]
  have hbits : ∀ n, Bits odd lh n ↔ low ≤ n ∧ n < high := by
    intro n
    unfold Bits
    rw [← hlo, ← hhi]
    split_ifs <;> omega
  have hB : Bits odd lh = fun n => low ≤ n ∧ n < high := funext fun n => propext (hbits n)
  rw [hB]
  by_cases hlt : low < high
  · rw [if_pos hlt]
    have c := wCeil_spec high (show (0 : ℤ) < 64 by norm_num)
    rw [wFloor_eq _ (by norm_num)]
    refine (chunks_ext h2 hps1 hps hasz b odd (by omega) (by omega) _ _ le_rfl (by omega) st).mono (fun _ => id) ?_
    rintro a b' ⟨rfl, m, ⟨m1, m2⟩, m3⟩
    exact ⟨rfl, m, ⟨by omega, m1, m2⟩, m3⟩
  · rw [if_neg hlt]
    refine Ext.refl st ?_
    rintro - a b' ⟨-, n, ⟨h1, -⟩, -⟩
    omega

/-- only odd numerators are examined with the denominator `b` -/
def oddB (f : Poly) (b : ℕ) : Bool := oddNums f.c f.deg || (b % 2 == 0 && useOpt f.c f.deg (checkDenom f))

theorem sift_ext {f : Poly} (h2 : 2 ≤ f.deg) {P : Par} (hps1 : ∀ p ∈ P.ps1, p ∈ primes) (hps : ∀ p ∈ P.ps2, p ∈ primes)
    (hasz : 0 < P.asz) (b : ℕ) (st : St) :
    Ext f (fun q => ∃ lh ∈ P.bd b, Val f b (oddB f b) (Bits (oddB f b) lh) q)
      (fun a b' => ∃ lh ∈ P.bd b, Tgt f b (oddB f b) (fun n => Bits (oddB f b) lh n ∧ (oddB f b = false ∧ b % 2 = 0 → n % 2 = 1)) a b')
      st (sift f P st b) := by
  unfold sift
  by_cases hh : st.halt = true
  · rw [if_pos hh]; exact Ext.refl st (by simp [hh])
  rw [if_neg hh]
  exact Ext.fold (step := siftInt f P.ps1 P.ps2 P.asz b (oddB f b)) (P.bd b)
    (fun lh hlh st => (siftInt_ext h2 hps1 hps hasz b (oddB f b) lh st).mono (fun q hq => ⟨lh, hlh, hq⟩) (fun _ _ => id)) st

/-! ## monic polynomials of odd degree -/

theorem horner_mod (c : ℕ → ℤ) (deg : ℕ) (a b : ℤ) (n : ℕ) : b ∣ horner c deg a b n - c deg * a ^ n := by
  induction n with
  | zero => simp [horner]
  | succ n ih =>
    obtain ⟨k, hk⟩ := ih
    exact ⟨k * a + c (deg - (n + 1)) * b ^ n, by rw [horner]; linear_combination a * hk⟩

theorem useSquares_iff (f : Poly) : useSquares f = true ↔ f.deg % 2 = 1 ∧ f.c f.deg = 1 := by
  unfold useSquares
  rw [Bool.and_eq_true, beq_iff_eq, beq_iff_eq]

/-- the denominators are squares -/
theorem denom_sq {f : Poly} (h : useSquares f = true) {a y : ℤ} {b : ℕ} (hb : 0 < b) (hab : IsCoprime a (b : ℤ))
    (hy : y ^ 2 = F f.c f.deg a b) : ∃ r : ℕ, b = r * r := by
  obtain ⟨h1, h2⟩ := (useSquares_iff f).mp h
  rw [F_eq, if_pos h1] at hy
  have hc : IsCoprime (b : ℤ) (horner f.c f.deg a b f.deg) := by
    obtain ⟨k, hk⟩ := horner_mod f.c f.deg a b f.deg
    rw [h2, one_mul] at hk
    have : horner f.c f.deg a b f.deg = a ^ f.deg + b * k := by linear_combination hk
    rw [this]
    exact (hab.symm.pow_right).add_mul_left_right k
  obtain ⟨r, hr⟩ := Int.sq_of_isCoprime hc (by rw [mul_comm]; exact hy.symm)
  rcases hr with hr | hr
  · refine ⟨r.natAbs, ?_⟩
    have : (b : ℤ) = (r.natAbs : ℤ) * r.natAbs := by rw [hr, sq, Int.natAbs_mul_self' r]
    exact_mod_cast this
  · have : (0 : ℤ) < b := by exact_mod_cast hb
    nlinarith [sq_nonneg r]

/-- the number tested is a square when the value of the form is one -/
theorem fff_sq {f : Poly} {a y : ℤ} {b : ℕ} (hb : 0 < b) (hab : IsCoprime a (b : ℤ)) (hy : y ^ 2 = F f.c f.deg a b) :
    ∃ z, z ^ 2 = fff f a b := by
  unfold fff
  by_cases hu : useSquares f = true
  · rw [if_neg (by simp [hu])]
    obtain ⟨r, rfl⟩ := denom_sq hu hb hab hy
    obtain ⟨h1, h2⟩ := (useSquares_iff f).mp hu
    rw [F_eq, if_pos h1] at hy
    have hr : (r : ℤ) ≠ 0 := by
      rintro h0
      have : r = 0 := by exact_mod_cast h0
      rw [this] at hb; omega
    have hd : (r : ℤ) ^ 2 ∣ y ^ 2 := ⟨horner f.c f.deg a (r * r : ℕ) f.deg, by rw [hy]; push_cast; ring⟩
    obtain ⟨z, rfl⟩ := (Int.pow_dvd_pow_iff two_ne_zero).mp hd
    refine ⟨z, mul_left_cancel₀ (pow_ne_zero 2 hr) ?_⟩
    push_cast at hy ⊢
    linear_combination hy
  · by_cases hd : f.deg % 2 = 1
    · rw [if_pos ⟨hd, by simpa using hu⟩]
      exact ⟨y, by rw [hy, F_eq, if_pos hd]⟩
    · rw [if_neg (fun h => hd h.1)]
      exact ⟨y, by rw [hy, F_eq, if_neg hd, mul_one]⟩

theorem fff_eq (f : Poly) (a : ℤ) (b : ℕ) :
    (useSquares f = false → fff f a b = F f.c f.deg a b) ∧ (useSquares f = true → fff f a b * b = F f.c f.deg a b) := by
  unfold fff
  rw [F_eq]
  constructor
  · intro h
    by_cases hd : f.deg % 2 = 1
    · rw [if_pos ⟨hd, h⟩, if_pos hd]
    · rw [if_neg (fun h => hd h.1), if_neg hd, mul_one]
  · intro h
    rw [if_neg (by simp [h]), if_pos ((useSquares_iff f).mp h).1]

theorem mem_denoms {f : Poly} (h2 : 2 ≤ f.deg) {P : Par} (hlow : 0 < P.bLow) (hsq : useSquares f = true → P.bLow = 1) {a y : ℤ}
    {b : ℕ} (h1 : P.bLow ≤ b) (h3 : b ≤ P.bHigh) (hab : IsCoprime a (b : ℤ)) (hy : y ^ 2 = F f.c f.deg a b) :
    b ∈ denoms f P := by
  unfold denoms
  by_cases hu : useSquares f = true
  · rw [if_pos hu, List.mem_map]
    obtain ⟨r, rfl⟩ := denom_sq hu (by omega) hab hy
    refine ⟨r, ?_, rfl⟩
    have := Nat.le_sqrt.mpr h3
    have h0 := hsq hu
    have hr : 0 < r := Nat.pos_of_ne_zero (by rintro rfl; omega)
    rw [h0, List.mem_range'_1]
    omega
  · rw [if_neg hu, List.mem_filter, List.mem_range'_1]
    refine ⟨⟨h1, by omega⟩, ?_⟩
    by_cases hc : checkDenom f = true
    · rw [hc, Bool.not_true, Bool.false_or, List.all_eq_true]
      intro q hq
      rw [bne_iff_ne]
      intro h0
      have hd : f.deg % 2 = 0 := by
        unfold checkDenom at hc
        by_contra hd
        have : f.deg % 2 = 1 := by omega
        simp [this] at hc
      exact forbidden_spec hd h2 hq (by exact_mod_cast Nat.dvd_of_mod_eq_zero h0) hab hy
    · simp [hc]

/-- points found: the point at infinity or a point with a denominator in the list -/
def Fnd (f : Poly) (P : Par) (q : ℤ × ℤ × ℤ) : Prop :=
  (q = (0, 1, 0) ∧ (f.deg % 2 = 1 ∨ IsSquare (f.c f.deg))) ∨
  ∃ b ∈ denoms f P, ∃ lh ∈ P.bd b, Val f b (oddB f b) (Bits (oddB f b) lh) q

theorem search_ext {f : Poly} (h2 : 2 ≤ f.deg) {P : Par} (hps1 : ∀ p ∈ P.ps1, p ∈ primes) (hps : ∀ p ∈ P.ps2, p ∈ primes)
    (hasz : 0 < P.asz) :
    Ext f (Fnd f P) (fun a b' => ∃ b ∈ denoms f P, ∃ lh ∈ P.bd b,
      Tgt f b (oddB f b) (fun n => Bits (oddB f b) lh n ∧ (oddB f b = false ∧ b % 2 = 0 → n % 2 = 1)) a b') ⟨[], false⟩
      (search f P) := by
  unfold search
  simp only
  obtain ⟨st, hst⟩ : ∃ x, (if (!checkDenom f && P.infty) = true then callProc f ⟨[], false⟩ (0, 1, 0) else ⟨[], false⟩) = x := ⟨_, rfl⟩
  rw [hst]
  have e0 : Ext f (Fnd f P) (fun _ _ => False) ⟨[], false⟩ st := by
    rw [← hst]
    split_ifs with h
    · refine ⟨by simp, fun q hq => ?_, fun _ => rfl, by simp, fun k _ => k _⟩
      rw [callProc, List.mem_singleton] at hq
      refine Or.inr (Or.inl ⟨hq, ?_⟩)
      rw [Bool.and_eq_true, Bool.not_eq_true'] at h
      unfold checkDenom at h
      simp only [Bool.not_eq_false', Bool.or_eq_true, beq_iff_eq] at h
      refine h.1.imp_right fun hs => ?_
      exact ⟨_, Marith.isqrt_sound _ hs⟩
    · exact Ext.refl _ (by simp)
  by_cases hh : st.halt = true
  · rw [if_pos hh]
    exact ⟨e0.sub, e0.new, e0.halt, fun h => absurd h (by rw [hh]; simp), e0.keep⟩
  rw [if_neg hh]
  by_cases hz : P.ps1 ++ P.ps2 ≠ [] ∧ primes.any (rZero f.c f.deg) = true
  · rw [if_pos hz]
    refine e0.mono (fun _ => id) ?_
    rintro a b' ⟨b, -, lh, -, -, n, -, -, hc, ⟨y, hy⟩, -⟩
    obtain ⟨p, hp, hr⟩ := List.any_eq_true.mp hz.2
    exact rZero_spec h2 hp hr hc hy
  rw [if_neg hz]
  refine (e0.trans (Ext.fold (denoms f P) (fun b hb st => (sift_ext h2 hps1 hps hasz b st).mono
    (fun q hq => Or.inr ⟨b, hb, hq⟩) (fun _ _ => id)) st)).mono (fun _ => id) fun _ _ h => Or.inr h

/-! ## C99 -/

/-- the sieve for an odd prime of the table and a denominator prime to it: bit `j` of word `i` is set exactly if the
numerator `64i + j` (`2(64i + j) + 1` in the table for odd numerators) gives a square modulo `p` -/
theorem C99_sieve (c : ℕ → ℤ) (deg : ℕ) {p : ℕ} (hp : p ∈ primes) {b : ℕ} (hb : ¬ p ∣ b) (odd : Bool) {i j : ℕ} (hi : i < p)
    (hj : j < 64) :
    ((row c deg p (b % p) odd).getD i 0).getLsbD j = true ↔
      ∃ y : ℤ, (p : ℤ) ∣ y ^ 2 - F c deg (if odd = true then 2 * (64 * (i : ℤ) + j) + 1 else 64 * i + j) b := by
  obtain ⟨h1, h2⟩ := primes_ok p hp
  rw [(row_unit h1 h2 (fun h => hb (Nat.dvd_of_mod_eq_zero h)) odd).2 i hi j hj]
  unfold SqF num
  push_cast
  exact Iff.rfl

/-- the row for denominators divisible by `p`: all bits are set if the degree is odd or the leading coefficient is a square
modulo `p`, and none otherwise; in this case no point in lowest terms has such a denominator -/
theorem C99_sieve_zero (c : ℕ → ℤ) (deg : ℕ) (h2 : 2 ≤ deg) {p : ℕ} (hp : p ∈ primes) {b : ℕ} (hb : p ∣ b) (odd : Bool)
    {i j : ℕ} (hi : i < p) (hj : j < 64) :
    (((row c deg p (b % p) odd).getD i 0).getLsbD j = true ↔ deg % 2 = 1 ∨ ∃ y : ℤ, (p : ℤ) ∣ y ^ 2 - c deg) ∧
    (((row c deg p (b % p) odd).getD i 0).getLsbD j = false → ∀ a y : ℤ, IsCoprime a (b : ℤ) → y ^ 2 ≠ F c deg a b) := by
  obtain ⟨h1, h3⟩ := primes_ok p hp
  rw [(row_zero c deg (Nat.mod_eq_zero_of_dvd hb) odd).2 i hi j hj]
  refine ⟨leadOk_spec c deg h3, fun h a y hab => ?_⟩
  have hl := mt (leadOk_spec c deg h3).mpr (by rw [h]; simp)
  push Not at hl
  exact lead_spec (by omega) h2 h1 (by push Not; exact hl.2) (by exact_mod_cast hb) hab

/-- denominators excluded, even numerators excluded: there are no points with these -/
theorem C99_excluded (c : ℕ → ℤ) (deg : ℕ) (h2 : 2 ≤ deg) (hd : deg % 2 = 0) (a b y : ℤ) (hab : IsCoprime a b)
    (hy : y ^ 2 = F c deg a b) : (∀ q ∈ forbidden c deg, ¬ (q : ℤ) ∣ b) ∧ (oddNums c deg = true → a % 2 = 1) :=
  ⟨fun _ hq hb => forbidden_spec hd h2 hq hb hab hy, fun h => oddNums_spec h2 h hab hy⟩

/-- `2x⁴ + 3x³ + 5x + 3`: the denominators divisible by 4, 3, 5, 11, … are excluded -/
example : (forbidden (fun k => [3, 5, 0, 3, 2].getD k 0) 4).take 4 = [4, 3, 5, 11] := by decide +kernel

/-! ## C100 -/

/-- a point handed to `process` is the point at infinity or belongs to a solution: `y² = F(a,b)`, or `y²·b = F(a,b)` when
only squares are used as denominators (odd degree, leading coefficient 1) -/
theorem C100_sound (f : Poly) (h2 : 2 ≤ f.deg) (P : Par) (hps1 : ∀ p ∈ P.ps1, p ∈ primes) (hps : ∀ p ∈ P.ps2, p ∈ primes)
    (hasz : 0 < P.asz) (a y b : ℤ) (h : (a, y, b) ∈ (search f P).pts) :
    ((a, y, b) = (0, 1, 0) ∧ (f.deg % 2 = 1 ∨ IsSquare (f.c f.deg))) ∨
    (IsCoprime a b ∧ (if f.deg % 2 = 1 ∧ f.c f.deg = 1 then y ^ 2 * b = F f.c f.deg a b else y ^ 2 = F f.c f.deg a b)) := by
  rcases (search_ext h2 hps1 hps hasz).new _ h with h | h
  · cases h
  rcases h with h | ⟨b', -, lh, -, n, -, -, h3, h4, h5⟩
  · exact Or.inl h
  · right
    simp only at h3 h4 h5
    subst h3
    refine ⟨h4, ?_⟩
    rw [h5]
    by_cases hu : useSquares f = true
    · rw [if_pos ((useSquares_iff f).mp hu)]
      exact (fff_eq f a b').2 hu
    · rw [if_neg (fun h => hu ((useSquares_iff f).mpr h))]
      exact (fff_eq f a b').1 (by simpa using hu)

/-- if the search is not stopped, every point `(a : b)` in lowest terms in the region has been found, except possibly
points with `a` the upper bound of an interval (see `C100_upper_bound`) -/
theorem C100_complete_partial (f : Poly) (h2 : 2 ≤ f.deg) (P : Par) (hps1 : ∀ p ∈ P.ps1, p ∈ primes)
    (hps : ∀ p ∈ P.ps2, p ∈ primes) (hasz : 0 < P.asz) (hlow : 0 < P.bLow)
    (hsq : f.deg % 2 = 1 → f.c f.deg = 1 → P.bLow = 1) (hstop : (search f P).halt = false)
    (a y : ℤ) (b : ℕ) (hb1 : P.bLow ≤ b) (hb2 : b ≤ P.bHigh) (l h : ℤ) (hlh : (l, h) ∈ P.bd b) (hl : l ≤ a) (hh : a ≤ h)
    (hah : a < h ∨ (b % 2 = 1 ∧ oddNums f.c f.deg = false)) (hab : IsCoprime a (b : ℤ)) (hy : y ^ 2 = F f.c f.deg a b) :
    ∃ y, (a, y, (b : ℤ)) ∈ (search f P).pts := by
  refine (search_ext h2 hps1 hps hasz).all hstop a b ⟨b, mem_denoms h2 hlow
    (fun hu => hsq ((useSquares_iff f).mp hu).1 ((useSquares_iff f).mp hu).2) hb1 hb2 hab hy, (l, h), hlh, rfl, ?_⟩
  have hbe : b % 2 = 0 → a % 2 = 1 := by
    intro h0
    by_contra h1
    have e1 : (2 : ℤ) ∣ a := by omega
    have e2 : (2 : ℤ) ∣ b := by omega
    exact Int.prime_two.not_isUnit (hab.isUnit_of_dvd' e1 e2)
  by_cases ho : oddB f b = true
  · have ha : a % 2 = 1 := by
      unfold oddB at ho
      rw [Bool.or_eq_true, Bool.and_eq_true, beq_iff_eq] at ho
      rcases ho with ho | ho
      · exact oddNums_spec h2 ho hab hy
      · exact hbe ho.1
    have hlt : a < h := by
      rcases hah with h | ⟨h3, h4⟩
      · exact h
      · unfold oddB at ho
        rw [h4, h3] at ho
        simp at ho
    refine ⟨(a - 1) / 2, ⟨?_, fun h => by rw [ho] at h; cases h.1⟩, ?_, hab, ⟨y, hy⟩, fff_sq (by omega) hab hy⟩
    · unfold Bits
      rw [if_pos ho]
      simp only
      omega
    · unfold num
      rw [if_pos ho]
      omega
  · refine ⟨a, ⟨?_, fun h => hbe h.2⟩, ?_, hab, ⟨y, hy⟩, fff_sq (by omega) hab hy⟩
    · unfold Bits
      rw [if_neg ho]
      exact ⟨hl, hh⟩
    · unfold num
      rw [if_neg ho]

/-- the search is not stopped if `process` never asks for it (as `point_counter`, sieve_search.h:58-66) -/
theorem C100_not_stopped (f : Poly) (h2 : 2 ≤ f.deg) (P : Par) (hps1 : ∀ p ∈ P.ps1, p ∈ primes)
    (hps : ∀ p ∈ P.ps2, p ∈ primes) (hasz : 0 < P.asz) (h : ∀ l, f.stop l = false) : (search f P).halt = false :=
  (search_ext h2 hps1 hps hasz).keep h rfl

/-- when only odd numerators are examined, a numerator equal to the upper bound of the interval is never examined -/
theorem C100_upper_bound (f : Poly) (h2 : 2 ≤ f.deg) (P : Par) (hps1 : ∀ p ∈ P.ps1, p ∈ primes)
    (hps : ∀ p ∈ P.ps2, p ∈ primes) (hasz : 0 < P.asz) (b : ℕ) (hb : 0 < b)
    (ho : oddNums f.c f.deg = true ∨ (b % 2 = 0 ∧ f.deg % 2 = 1)) (l h : ℤ)
    (hbd : P.bd b = [(l, h)]) (y : ℤ) : (h, y, (b : ℤ)) ∉ (search f P).pts := by
  intro hm
  have hob : oddB f b = true := by
    unfold oddB
    rcases ho with ho | ⟨h1, h2⟩
    · rw [ho]; rfl
    · have : checkDenom f = false := by unfold checkDenom; simp [h2]
      simp [h1, useOpt, this]
  rcases (search_ext h2 hps1 hps hasz).new _ hm with hm | hm
  · cases hm
  rcases hm with ⟨hm, -⟩ | ⟨b', -, lh, hlh, n, hn, h1, h3, -⟩
  · simp only [Prod.mk.injEq] at hm
    omega
  · simp only at h1 h3
    obtain rfl : b' = b := by exact_mod_cast h3.symm
    rw [hbd, List.mem_singleton] at hlh
    subst hlh
    unfold Bits at hn
    unfold num at h1
    rw [if_pos hob] at hn h1
    simp only at hn
    omega

/-- `y² = 7x⁴ - x² + 3` has the point `(1, 3)`, and a search to the height 1 does not find it, for any choice of primes and
any denominators -/
theorem C100_missed (P : Par) (hps1 : ∀ p ∈ P.ps1, p ∈ primes) (hps : ∀ p ∈ P.ps2, p ∈ primes) (hasz : 0 < P.asz)
    (hbd : P.bd 1 = [(-1, 1)]) (stop : List (ℤ × ℤ × ℤ) → Bool) (y : ℤ) :
    (3 : ℤ) ^ 2 = F (fun k => [3, 0, -1, 0, 7].getD k 0) 4 1 1 ∧
    (1, y, ((1 : ℕ) : ℤ)) ∉ (search ⟨4, fun k => [3, 0, -1, 0, 7].getD k 0, stop⟩ P).pts :=
  ⟨by decide +kernel, C100_upper_bound _ (by norm_num) P hps1 hps hasz 1 (by norm_num) (Or.inl (by dsimp only; decide +kernel)) _ _ hbd y⟩

/-- `y² = x³ - 3x + 1` has the point `(9/4, 19/8)`, and a search to the height 9 does not find it -/
theorem C100_missed' (P : Par) (hps1 : ∀ p ∈ P.ps1, p ∈ primes) (hps : ∀ p ∈ P.ps2, p ∈ primes) (hasz : 0 < P.asz)
    (hbd : P.bd 4 = [(-9, 9)]) (stop : List (ℤ × ℤ × ℤ) → Bool) (y : ℤ) :
    (38 : ℤ) ^ 2 = F (fun k => [1, -3, 0, 1].getD k 0) 3 9 4 ∧
    (9, y, ((4 : ℕ) : ℤ)) ∉ (search ⟨3, fun k => [1, -3, 0, 1].getD k 0, stop⟩ P).pts :=
  ⟨by decide +kernel, C100_upper_bound _ (by norm_num) P hps1 hps hasz 4 (by norm_num) (Or.inr ⟨by norm_num, by norm_num⟩) _ _ hbd y⟩

/-- a search to the height 10 finds the point `(9/4, 19/8)` of `y² = x³ - 3x + 1`: the hypotheses of completeness hold -/
example : ∃ y, (9, y, ((4 : ℕ) : ℤ)) ∈ (search ⟨3, fun k => [1, -3, 0, 1].getD k 0, fun _ => false⟩
    ⟨[3, 5], [7], 2, 1, 10, fun _ => [(-10, 10)], true⟩).pts :=
  C100_complete_partial _ (by norm_num) _ (by decide) (by decide) (by norm_num) (by norm_num) (fun _ _ => rfl)
    (C100_not_stopped _ (by norm_num) _ (by decide) (by decide) (by norm_num) fun _ => rfl)
    9 38 4 (by norm_num) (by norm_num) (-10) 10 (by simp) (by norm_num) (by norm_num) (Or.inl (by norm_num))
    (by rw [Int.isCoprime_iff_gcd_eq_one]; rfl) (by decide +kernel)

end Eclib.Stoll
