import Verif.Bits.SqfProps

/-!
# C60: `makenum` and `makeindex`
-/

namespace Eclib.Sqf

open Eclib.Marith (val div)
open Eclib.Bits

/-- a support: distinct positive primes, preceded by `-1` or not -/
def suppOf (sgn : Bool) (ps : List ℤ) : List ℤ := if sgn then -1 :: ps else ps

theorem shift_zero (m i : ℕ) : (m >>> i).testBit 0 = m.testBit i := by
  rw [Nat.testBit_shiftRight, Nat.add_zero]

theorem shift_half (m i : ℕ) : (m >>> i) / 2 = m >>> (i + 1) := by
  rw [Nat.shiftRight_succ]

theorem sqfmul_coprime {a b : ℤ} (h : IsCoprime a b) : sqfmul a b = a * b := by
  simp only [sqfmul]
  rw [Int.isCoprime_iff_gcd_eq_one.1 h]
  simp

theorem makenumLoop_eq {l : List ℤ} (h : l.Pairwise IsCoprime) (mask i : ℕ)
    (hi : i + l.length ≤ 31) (ans : ℤ) (ha : ∀ p ∈ l, IsCoprime ans p) :
    makenumLoop mask l i ans = some (ans * decP l (mask >>> i)) := by
  induction l generalizing i ans with
  | nil => simp [makenumLoop, decP]
  | cons p l ih =>
    rw [List.length_cons] at hi
    obtain ⟨h1, h2⟩ := List.pairwise_cons.1 h
    rw [makenumLoop, testbit, if_pos (by omega), decP, shift_zero, shift_half]
    by_cases hb : mask.testBit i = true
    · simp only [hb, if_true]
      rw [sqfmul_coprime (ha p List.mem_cons_self), ih h2 (i + 1) (by omega), mul_assoc]
      intro q hq
      exact IsCoprime.mul_left (ha q (List.mem_cons_of_mem _ hq)) (h1 q hq)
    · have hb : mask.testBit i = false := by simpa using hb
      simp only [hb]
      rw [ih h2 (i + 1) (by omega) _ fun q hq => ha q (List.mem_cons_of_mem _ hq)]
      simp

theorem makenumLoop_wide {l : List ℤ} (mask i : ℕ) (hi : 32 ≤ i + l.length) (hl : l ≠ []) (ans : ℤ) :
    makenumLoop mask l i ans = none := by
  induction l generalizing i ans with
  | nil => exact absurd rfl hl
  | cons p l ih =>
    rw [List.length_cons] at hi
    rw [makenumLoop, testbit]
    split_ifs with h
    · have hl' : l ≠ [] := by rintro rfl; simp at hi; omega
      cases mask.testBit i
      · exact ih (i + 1) (by omega) hl' _
      · exact ih (i + 1) (by omega) hl' _
    · rfl

theorem supp_coprime (sgn : Bool) {ps : List ℤ} (h : Base ps) :
    (suppOf sgn ps).Pairwise IsCoprime := by
  have h1 : ps.Pairwise IsCoprime := by
    refine List.Pairwise.imp_of_mem ?_ h.nodup
    intro a b ha hb hab
    rw [(h.prime a ha).coprime_iff_not_dvd]
    exact fun hd => hab (prime_eq (h.prime a ha) (h.prime b hb) (h.pos a ha) (h.pos b hb) hd)
  cases sgn
  · exact h1
  · rw [suppOf, if_pos rfl, List.pairwise_cons]
    refine ⟨fun q _ => ?_, h1⟩
    exact IsCoprime.neg_left isCoprime_one_left

theorem makenum_eq (sgn : Bool) {ps : List ℤ} (h : Base ps) (hl : (suppOf sgn ps).length ≤ 31)
    (mask : ℕ) : makenum (suppOf sgn ps) mask = some (decP (suppOf sgn ps) mask) := by
  rw [makenum, makenumLoop_eq (supp_coprime sgn h) mask 0 (by omega) 1
    (fun _ _ => isCoprime_one_left), one_mul, Nat.shiftRight_zero]

theorem decP_prod (l : List ℤ) (m : ℕ) :
    decP l m = ((List.range l.length).map fun i => if m.testBit i then l.getD i 1 else 1).prod := by
  induction l generalizing m with
  | nil => rfl
  | cons p l ih =>
    rw [decP, ih, List.length_cons, List.range_succ_eq_map, List.map_cons, List.prod_cons,
      List.map_map]
    congr 2
    apply List.map_congr_left
    intro i _
    rw [Function.comp_apply, Nat.succ_eq_add_one, Nat.testBit_succ]
    rfl

/-- the bit of `makeindex` for one entry of the support -/
def BitOf (n p : ℤ) : Prop := if p < 0 then n < 0 else val p n % 2 = 1

instance (n p : ℤ) : Decidable (BitOf n p) := by unfold BitOf; infer_instance

/-- the mask of those bits -/
def encP (n : ℤ) : List ℤ → ℕ
  | [] => 0
  | p :: l => (if BitOf n p then 1 else 0) + 2 * encP n l

theorem encP_bit (n : ℤ) (l : List ℤ) (i : ℕ) :
    (encP n l).testBit i = true ↔ ∃ p, l[i]? = some p ∧ BitOf n p := by
  induction l generalizing i with
  | nil => simp [encP]
  | cons p l ih =>
    rcases i with _ | i
    · rw [encP]
      by_cases hb : BitOf n p
      · rw [if_pos hb]
        refine iff_of_true ?_ ⟨p, rfl, hb⟩
        rw [Nat.testBit_zero]; simp
      · rw [if_neg hb]
        refine iff_of_false ?_ ?_
        · rw [Nat.testBit_zero]; simp
        · rintro ⟨q, hq, hb'⟩
          have : p = q := by simpa using hq
          exact hb (this ▸ hb')
    · rw [Nat.testBit_succ]
      have : encP n (p :: l) / 2 = encP n l := by
        rw [encP]; split_ifs <;> omega
      rw [this, ih]; simp

theorem encP_lt (n : ℤ) (l : List ℤ) : encP n l < 2 ^ l.length := by
  induction l with
  | nil => simp [encP]
  | cons p l ih =>
    rw [encP, List.length_cons, pow_succ]
    split_ifs <;> omega

theorem makeindexLoop_eq {n : ℤ} {l : List ℤ} (hn : ∀ p ∈ l, p < 0 → p = -1) (i : ℕ)
    (hi : i + l.length ≤ 31) (idx : ℕ) (hidx : idx < 2 ^ i) (n0 : ℤ) :
    makeindexLoop n l i (idx, n0) = some (idx + 2 ^ i * encP n l, n0 * decP l (encP n l)) := by
  induction l generalizing i idx n0 with
  | nil => simp [makeindexLoop, encP, decP]
  | cons p l ih =>
    rw [List.length_cons] at hi
    have ih' := fun {i idx n0} => ih (fun q hq => hn q (List.mem_cons_of_mem _ hq)) i (idx := idx) (n0 := n0)
    have hor : idx ||| 2 ^ i = idx + 2 ^ i := by
      rw [Nat.or_comm, Nat.add_comm]
      have := Nat.two_pow_add_eq_or_of_lt hidx 1
      rw [mul_one] at this
      exact this.symm
    have hpow : 2 ^ (i + 1) = 2 ^ i + 2 ^ i := by rw [pow_succ]; omega
    have hhalf : encP n (p :: l) / 2 = encP n l := by
      rw [encP]; split_ifs <;> omega
    have hzero : (encP n (p :: l)).testBit 0 = decide (BitOf n p) := by
      rw [Bool.eq_iff_iff, encP_bit, decide_eq_true_eq]; simp
    have hdec : decP (p :: l) (encP n (p :: l)) = (if BitOf n p then p else 1) * decP l (encP n l) := by
      rw [decP, hhalf, hzero]; simp
    rw [hdec, makeindexLoop]
    by_cases hp : p < 0
    · rw [if_pos hp]
      have hp1 := hn p List.mem_cons_self hp
      by_cases hb : n < 0
      · have hB : BitOf n p := by rw [BitOf, if_pos hp]; exact hb
        rw [if_pos hb, if_pos (by omega), hor, ih' (by omega) (by omega), encP, if_pos hB, if_pos hB,
          hp1]
        congr 2
        · rw [hpow]; ring
        · ring
      · have hB : ¬ BitOf n p := by rw [BitOf, if_pos hp]; exact hb
        rw [if_neg hb, ih' (by omega) (by omega), encP, if_neg hB, if_neg hB]
        congr 2
        · rw [hpow]; ring
        · ring
    · rw [if_neg hp]
      by_cases hb : val p n % 2 = 1
      · have hB : BitOf n p := by rw [BitOf, if_neg hp]; exact hb
        rw [if_pos hb, if_pos (by omega), hor, ih' (by omega) (by omega), encP, if_pos hB, if_pos hB]
        congr 2
        · rw [hpow]; ring
        · ring
      · have hB : ¬ BitOf n p := by rw [BitOf, if_neg hp]; exact hb
        rw [if_neg hb, ih' (by omega) (by omega), encP, if_neg hB, if_neg hB]
        congr 2
        · rw [hpow]; ring
        · ring

theorem supp_neg (sgn : Bool) {ps : List ℤ} (h : Base ps) : ∀ p ∈ suppOf sgn ps, p < 0 → p = -1 := by
  intro p hp h0
  cases sgn
  · have := h.pos p hp; omega
  · rcases List.mem_cons.1 hp with rfl | hp
    · rfl
    · have := h.pos p hp; omega

theorem makeindex_eq (sgn : Bool) {ps : List ℤ} (h : Base ps) (hl : (suppOf sgn ps).length ≤ 31)
    {n : ℤ} (hn : n ≠ 0) :
    makeindex (suppOf sgn ps) n =
      some (encP n (suppOf sgn ps), decP (suppOf sgn ps) (encP n (suppOf sgn ps))) := by
  rw [makeindex, if_neg hn, makeindexLoop_eq (supp_neg sgn h) 0 (by omega) 0 (by simp)]
  simp

/-- C60, `makenum`: for a support of at most 31 entries, `makenum(supp,mask)` is the product of the
entries selected by the bits of the mask, and xor of masks is multiplication modulo squares -/
theorem C60_makenum_partial (sgn : Bool) (ps : List ℤ) (h : Base ps)
    (hl : (suppOf sgn ps).length ≤ 31) (mask : ℕ) :
    ∃ x, makenum (suppOf sgn ps) mask = some x ∧
      x = ((List.range (suppOf sgn ps).length).map fun i =>
        if mask.testBit i then (suppOf sgn ps).getD i 1 else 1).prod ∧
      Squarefree x ∧
      ∀ mask' x', makenum (suppOf sgn ps) mask' = some x' →
        ∃ y, makenum (suppOf sgn ps) (mask ^^^ mask') = some y ∧ IsSquare (x * x' * y) := by
  refine ⟨_, makenum_eq sgn h hl mask, decP_prod _ _, ?_, ?_⟩
  · cases sgn
    · exact squarefree_decP h mask
    · exact squarefree_dec h mask
  · intro mask' x' hx'
    rw [makenum_eq sgn h hl] at hx'
    have := Option.some.inj hx'
    subst this
    exact ⟨_, makenum_eq sgn h hl _, sq_decP_xor _ _ _⟩

/-- C60, `makeindex`: for nonzero `n` the bits of the index are the sign and the parities of the
valuations of `n`, and `n0` is `makenum` of the index -/
theorem C60_makeindex_partial (sgn : Bool) (ps : List ℤ) (h : Base ps)
    (hl : (suppOf sgn ps).length ≤ 31) (n : ℤ) (hn : n ≠ 0) :
    ∃ idx n0, makeindex (suppOf sgn ps) n = some (idx, n0) ∧
      idx < 2 ^ (suppOf sgn ps).length ∧
      (∀ i p, (suppOf sgn ps)[i]? = some p → p < 0 → (idx.testBit i = true ↔ n < 0)) ∧
      (∀ i p, (suppOf sgn ps)[i]? = some p → 0 < p →
        ∃ e, Spec.ExactPower p n e ∧ (idx.testBit i = true ↔ Odd e)) ∧
      makenum (suppOf sgn ps) idx = some n0 := by
  refine ⟨_, _, makeindex_eq sgn h hl hn, encP_lt _ _, ?_, ?_, makenum_eq sgn h hl _⟩
  · intro i p hi hp
    rw [encP_bit]
    constructor
    · rintro ⟨q, hq, hb⟩
      rw [hi] at hq
      have := Option.some.inj hq
      subst this
      rw [BitOf, if_pos hp] at hb; exact hb
    · intro hb
      exact ⟨p, hi, by rw [BitOf, if_pos hp]; exact hb⟩
  · intro i p hi hp
    have hpm : p ∈ ps := by
      have := List.mem_of_getElem? hi
      cases sgn
      · exact this
      · rcases List.mem_cons.1 this with rfl | h'
        · omega
        · exact h'
    have hpp := h.prime p hpm
    have hp2 : 2 ≤ |p| := by
      have h1 := hpp.not_isUnit
      rw [Int.isUnit_iff] at h1
      rw [abs_of_pos hp]; omega
    refine ⟨val p n, (Marith.Props.C06_val_big p n).1 hp2 hn, ?_⟩
    rw [encP_bit, Nat.odd_iff]
    constructor
    · rintro ⟨q, hq, hb⟩
      rw [hi] at hq
      have := Option.some.inj hq
      subst this
      rw [BitOf, if_neg (by omega)] at hb; exact hb
    · intro hb
      exact ⟨p, hi, by rw [BitOf, if_neg (by omega)]; exact hb⟩

/-- C60, the two functions are inverse to each other: `makeindex` recovers the mask given to
`makenum`, and for `n` equal to a square times a squarefree number with this support, `makenum`
of the index is that squarefree number -/
theorem C60_roundtrip_partial (ps : List ℤ) (h : Base ps) (hl : ps.length ≤ 30) :
    (∀ mask < 2 ^ (ps.length + 1), ∀ x, makenum (suppOf true ps) mask = some x →
      makeindex (suppOf true ps) x = some (mask, x)) ∧
    (∀ s t : ℤ, t ≠ 0 → Squarefree s → (∀ q, Prime q → 0 < q → q ∣ s → q ∈ ps) →
      ∃ idx, makeindex (suppOf true ps) (s * t ^ 2) = some (idx, s)) := by
  have hlen : (suppOf true ps).length ≤ 31 := by simp [suppOf]; omega
  have key : ∀ m < 2 ^ (ps.length + 1), ∀ t : ℤ, t ≠ 0 →
      makeindex (suppOf true ps) (decP (-1 :: ps) m * t ^ 2) = some (m, decP (-1 :: ps) m) := by
    intro m hm t ht
    have hne : decP (-1 :: ps) m * t ^ 2 ≠ 0 :=
      mul_ne_zero (squarefree_dec h m).ne_zero (pow_ne_zero _ ht)
    have he : encP (decP (-1 :: ps) m * t ^ 2) (suppOf true ps) = m := by
      apply Nat.eq_of_testBit_eq
      intro i
      rw [Bool.eq_iff_iff, encP_bit]
      rcases i with _ | i
      · have ht2 : 0 < t ^ 2 := by positivity
        constructor
        · rintro ⟨p, hp, hb⟩
          have : -1 = p := by simpa [suppOf] using hp
          subst this
          rw [BitOf, if_pos (by decide)] at hb
          exact (dec_neg h m).1 (by nlinarith)
        · intro hb
          refine ⟨-1, rfl, ?_⟩
          rw [BitOf, if_pos (by decide)]
          have := (dec_neg h m).2 hb
          nlinarith
      · have hg : ∀ p, (suppOf true ps)[i + 1]? = some p ↔ ps[i]? = some p := by
          intro p; simp [suppOf]
        constructor
        · rintro ⟨p, hp, hb⟩
          rw [hg] at hp
          have hpm := List.mem_of_getElem? hp
          rw [BitOf, if_neg (by have := h.pos p hpm; omega),
            val_parity (h.prime p hpm) (squarefree_dec h m) ht] at hb
          exact (dvd_dec_get h hp m).1 hb
        · intro hb
          have hi : i < ps.length := by have := testBit_lt hm hb; omega
          have hp : ps[i]? = some ps[i] := List.getElem?_eq_getElem hi
          have hpm := List.mem_of_getElem? hp
          refine ⟨ps[i], (hg _).2 hp, ?_⟩
          rw [BitOf, if_neg (by have := h.pos _ hpm; omega),
            val_parity (h.prime _ hpm) (squarefree_dec h m) ht]
          exact (dvd_dec_get h hp m).2 hb
    rw [makeindex_eq true h hlen hne, he]; rfl
  refine ⟨?_, ?_⟩
  · intro mask hm x hx
    rw [makenum_eq true h hlen] at hx
    have hx := Option.some.inj hx
    have := key mask hm 1 one_ne_zero
    rw [one_pow, mul_one] at this
    rw [← hx]; exact this
  · intro s t ht hs hp
    obtain ⟨m, hm, rfl⟩ := exists_dec h hs hp
    exact ⟨m, key m hm t ht⟩

/-- C60 as the code stands: a support of 32 or more entries makes `makenum` shift an `int` too far -/
theorem C60_wide (supp : List ℤ) (h : 32 ≤ supp.length) (mask : ℕ) : makenum supp mask = none :=
  makenumLoop_wide mask 0 (by omega) (by rintro rfl; simp at h) 1

example : makenum (suppOf true [2, 3, 7]) 11 = some (-14) := by decide +kernel
example : makeindex (suppOf true [2, 3, 7]) (-56) = some (11, -14) := by decide +kernel

end Eclib.Sqf
