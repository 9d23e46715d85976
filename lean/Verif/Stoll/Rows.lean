import Verif.Stoll.Table
import Mathlib.Data.Nat.Prime.Basic
import Mathlib.Data.Int.GCD
import Mathlib.RingTheory.Coprime.Lemmas
import Mathlib.Data.List.GetD
import Mathlib.Algebra.BigOperators.Ring.Finset

/-!
# The bit patterns of the sieve
-/

namespace Eclib.Stoll

/-- bit `n` of a list of words -/
def bit (h : List W) (n : ℕ) : Bool := (h.getD (n / 64) 0).getLsbD (n % 64)

theorem setBit_length (h : List W) (n : ℕ) : (setBit h n).length = h.length := by simp [setBit]

theorem getLsbD_one_shift (k j : ℕ) (hj : j < 64) : ((1#64 : W) <<< k).getLsbD j = decide (j = k) := by
  rw [BitVec.getLsbD_shiftLeft]
  by_cases h : j = k
  · subst h; simp [hj]
  · simp only [h, decide_false, hj, decide_true, Bool.true_and]
    by_cases h2 : j < k
    · simp [h2]
    · have : (1#64 : BitVec 64).getLsbD (j - k) = false := by
        rw [BitVec.getLsbD_one]
        simp
        omega
      simp [this]

theorem bit_setBit (h : List W) (n m : ℕ) : bit (setBit h n) m = true ↔ bit h m = true ∨ (m = n ∧ n < 64 * h.length) := by
  unfold bit setBit
  rw [List.getD_eq_getElem?_getD (l := List.set _ _ _), List.getElem?_set]
  have hm : m % 64 < 64 := Nat.mod_lt _ (by norm_num)
  by_cases h1 : n / 64 = m / 64
  · rw [if_pos h1]
    by_cases h2 : n / 64 < h.length
    · rw [if_pos h2, Option.getD_some, BitVec.getLsbD_or, getLsbD_one_shift _ _ hm, Bool.or_eq_true, decide_eq_true_eq, h1]
      refine or_congr Iff.rfl ⟨fun e => ⟨by omega, by omega⟩, fun e => by omega⟩
    · rw [if_neg h2]
      have : h.getD (m / 64) 0 = 0 := by
        rw [List.getD_eq_getElem?_getD, List.getElem?_eq_none (by omega)]; rfl
      rw [this]
      simp only [Option.getD_none]
      constructor
      · intro e; exact Or.inl e
      · rintro (e | ⟨-, e⟩)
        · exact e
        · omega
  · rw [if_neg h1, ← List.getD_eq_getElem?_getD]
    constructor
    · exact Or.inl
    · rintro (e | ⟨e, -⟩)
      · exact e
      · exact absurd (by rw [e]) h1

theorem foldl_setBit (l : List ℕ) (h : List W) :
    (l.foldl setBit h).length = h.length ∧
    ∀ m, bit (l.foldl setBit h) m = true ↔ bit h m = true ∨ (m ∈ l ∧ m < 64 * h.length) := by
  induction l generalizing h with
  | nil => simp
  | cons n l ih =>
    rw [List.foldl_cons]
    obtain ⟨h1, h2⟩ := ih (setBit h n)
    refine ⟨h1.trans (setBit_length h n), fun m => ?_⟩
    rw [h2, bit_setBit, setBit_length, List.mem_cons]
    constructor
    · rintro ((e | ⟨rfl, e⟩) | ⟨e1, e2⟩)
      · exact Or.inl e
      · exact Or.inr ⟨Or.inl rfl, e⟩
      · exact Or.inr ⟨Or.inr e1, e2⟩
    · rintro (e | ⟨rfl | e1, e2⟩)
      · exact Or.inl (Or.inl e)
      · exact Or.inl (Or.inr ⟨rfl, e2⟩)
      · exact Or.inr ⟨e1, e2⟩

theorem foldl_help (P : ℕ → Bool) (pl : ℕ → List ℕ) (l : List ℕ) (h : List W) :
    (l.foldl (fun h a => if P a = true then (pl a).foldl setBit h else h) h).length = h.length ∧
    ∀ m, bit (l.foldl (fun h a => if P a = true then (pl a).foldl setBit h else h) h) m = true ↔
      bit h m = true ∨ ((∃ a ∈ l, P a = true ∧ m ∈ pl a) ∧ m < 64 * h.length) := by
  induction l generalizing h with
  | nil => simp
  | cons a l ih =>
    rw [List.foldl_cons]
    obtain ⟨h1, h2⟩ := ih (if P a = true then (pl a).foldl setBit h else h)
    obtain ⟨h3, h4⟩ := foldl_setBit (pl a) h
    have hlen : (if P a = true then (pl a).foldl setBit h else h).length = h.length := by split_ifs <;> simp [h3]
    refine ⟨h1.trans hlen, fun m => ?_⟩
    rw [h2, hlen]
    simp only [List.mem_cons, exists_eq_or_imp]
    by_cases hP : P a = true
    · rw [if_pos hP, h4]
      constructor
      · rintro ((e | ⟨e1, e2⟩) | ⟨e1, e2⟩)
        · exact Or.inl e
        · exact Or.inr ⟨Or.inl ⟨hP, e1⟩, e2⟩
        · exact Or.inr ⟨Or.inr e1, e2⟩
      · rintro (e | ⟨⟨-, e1⟩ | e1, e2⟩)
        · exact Or.inl (Or.inl e)
        · exact Or.inl (Or.inr ⟨e1, e2⟩)
        · exact Or.inr ⟨e1, e2⟩
    · rw [if_neg hP]
      constructor
      · rintro (e | ⟨e1, e2⟩)
        · exact Or.inl e
        · exact Or.inr ⟨Or.inr e1, e2⟩
      · rintro (e | ⟨⟨e0, -⟩ | e1, e2⟩)
        · exact Or.inl e
        · exact absurd e0 hP
        · exact Or.inr ⟨e1, e2⟩

theorem mem_places {p r n : ℕ} (hp : p % 2 = 1) (hr : r < p) : n ∈ places p r ↔ n % p = r ∧ n < (64 / p + 1) * p := by
  have hp0 : 0 < p := by omega
  unfold places
  split_ifs with h
  · rw [List.mem_map]
    constructor
    · rintro ⟨i, hi, rfl⟩
      rw [List.mem_range] at hi
      refine ⟨by rw [Nat.add_mul_mod_self_right, Nat.mod_eq_of_lt hr], ?_⟩
      calc r + i * p < p + i * p := by omega
        _ = (i + 1) * p := by ring
        _ ≤ (64 / p + 1) * p := Nat.mul_le_mul_right _ (by omega)
    · rintro ⟨h1, h2⟩
      refine ⟨n / p, List.mem_range.mpr ((Nat.div_lt_iff_lt_mul hp0).mpr h2), ?_⟩
      have := Nat.mod_add_div' n p
      omega
  · rw [Nat.div_eq_of_lt (show 64 < p by omega), zero_add, one_mul, List.mem_singleton]
    constructor
    · rintro rfl; exact ⟨Nat.mod_eq_of_lt hr, hr⟩
    · rintro ⟨h1, h2⟩; rwa [Nat.mod_eq_of_lt h2] at h1

theorem half_spec {p r : ℕ} (hp : p % 2 = 1) (hr : r < p) : half p r < p ∧ (2 * half p r + 1) % p = r := by
  unfold half
  split_ifs with h
  · refine ⟨by omega, ?_⟩
    rw [show 2 * ((r - 1) / 2) + 1 = r by omega, Nat.mod_eq_of_lt hr]
  · refine ⟨by omega, ?_⟩
    rw [show 2 * ((r + p - 1) / 2) + 1 = r + p by omega, Nat.add_mod_right, Nat.mod_eq_of_lt hr]

/-- the numerator belonging to bit `n` -/
def num (odd : Bool) (n : ℤ) : ℤ := if odd = true then 2 * n + 1 else n

theorem num_congr (odd : Bool) {n m : ℤ} {p : ℤ} (h : n ≡ m [ZMOD p]) : num odd n ≡ num odd m [ZMOD p] := by
  unfold num
  split_ifs
  · exact (h.mul_left 2).add_right 1
  · exact h

theorem SqF_congr (c : ℕ → ℤ) (deg : ℕ) {p : ℕ} {a a' b : ℤ} (h : a ≡ a' [ZMOD p]) : SqF c deg p a b ↔ SqF c deg p a' b :=
  sq_congr (F_congr c deg h)

/-- the residues set are those of the numerators giving squares -/
theorem pattern {c : ℕ → ℤ} {deg p b : ℕ} (hp : p.Prime) (hp2 : p % 2 = 1) (hb : ¬ p ∣ b) (odd : Bool) (n : ℕ) :
    (∃ a < p, isF c deg p a = true ∧ n % p = (if odd = true then half p (a * b % p) else a * b % p)) ↔
      SqF c deg p (num odd n) b := by
  have hcop : IsCoprime (b : ℤ) (p : ℤ) := Nat.isCoprime_iff_coprime.mpr ((hp.coprime_iff_not_dvd.mpr hb).symm)
  have hp0 : 0 < p := hp.pos
  have hn : ∀ a : ℕ, n % p = (if odd = true then half p (a * b % p) else a * b % p) ↔ num odd n ≡ a * b [ZMOD p] := by
    intro a
    have hr : a * b % p < p := Nat.mod_lt _ hp0
    have hab : ((a * b % p : ℕ) : ℤ) ≡ a * b [ZMOD p] := by push_cast; exact Int.mod_modEq _ _
    have hnn : ((n % p : ℕ) : ℤ) ≡ n [ZMOD p] := by push_cast; exact Int.mod_modEq _ _
    cases odd
    · simp only [num, Bool.false_eq_true, if_false]
      constructor
      · intro e; rw [e] at hnn; exact hnn.symm.trans hab
      · intro e
        have := (Int.natCast_modEq_iff (a := n) (b := a * b) (n := p)).mp (by push_cast; exact e)
        exact this
    · simp only [num, if_true]
      obtain ⟨k1, k2⟩ := half_spec hp2 hr
      have k3 : (2 * (half p (a * b % p) : ℤ) + 1) ≡ a * b [ZMOD p] := by
        have : (((2 * half p (a * b % p) + 1) % p : ℕ) : ℤ) ≡ (2 * half p (a * b % p) + 1 : ℕ) [ZMOD p] := by
          push_cast; exact Int.mod_modEq _ _
        rw [k2] at this
        push_cast at this
        exact this.symm.trans (by push_cast at hab; exact hab)
      constructor
      · intro e
        rw [e] at hnn
        exact ((hnn.symm.mul_left 2).add_right 1).trans k3
      · intro e
        have e1 : (2 * (n : ℤ)) ≡ 2 * half p (a * b % p) [ZMOD p] := Int.ModEq.add_right_cancel' 1 (e.trans k3.symm)
        have e2 : 2 * n ≡ 2 * half p (a * b % p) [MOD p] := by
          rw [← Int.natCast_modEq_iff]; push_cast; exact e1
        have e3 : n ≡ half p (a * b % p) [MOD p] :=
          Nat.ModEq.cancel_left_of_coprime (Nat.Coprime.symm ((Nat.coprime_primes Nat.prime_two hp).mpr (by omega))) e2
        rw [e3, Nat.mod_eq_of_lt k1]
  constructor
  · rintro ⟨a, -, h1, h2⟩
    exact (SqF_iff c deg hp2 hcop ((hn a).mp h2)).mpr h1
  · intro h
    obtain ⟨s, t, hst⟩ := hcop
    have hpz : (0 : ℤ) < p := by exact_mod_cast hp0
    have h0 := Int.emod_nonneg (num odd n * s) hpz.ne'
    have h1 := Int.emod_lt_of_pos (num odd n * s) hpz
    have e : num odd n ≡ ((num odd n * s % p).toNat : ℤ) * b [ZMOD p] := by
      rw [Int.toNat_of_nonneg h0]
      refine Int.ModEq.trans ?_ ((Int.mod_modEq _ _).symm.mul_right _)
      exact Int.modEq_iff_dvd.mpr ⟨-(num odd n * t), by linear_combination num odd n * hst⟩
    exact ⟨(num odd n * s % p).toNat, by omega, (SqF_iff c deg hp2 ⟨s, t, hst⟩ e).mp h, (hn _).mpr e⟩

theorem help_spec {c : ℕ → ℤ} {deg p b : ℕ} (hp : p.Prime) (hp2 : p % 2 = 1) (hb : ¬ p ∣ b) (odd : Bool) :
    (help c deg p b odd).length = (64 / p + 1) * p / 64 + 1 ∧
    ∀ n, bit (help c deg p b odd) n = true ↔ n < (64 / p + 1) * p ∧ SqF c deg p (num odd n) b := by
  unfold help
  obtain ⟨h1, h2⟩ := foldl_help (isF c deg p)
    (fun a => places p (if odd = true then half p (a * b % p) else a * b % p)) (List.range p)
    (List.replicate ((if p / 64 = 0 then 1 else p / 64) + 1) 0)
  have hlen : (if p / 64 = 0 then 1 else p / 64) = (64 / p + 1) * p / 64 := by
    have hp0 := hp.pos
    by_cases h : p < 64
    · rw [if_pos (by omega)]
      have e1 := Nat.div_add_mod 64 p
      have e2 := Nat.mod_lt 64 hp0
      rw [add_mul, one_mul, mul_comm]
      omega
    · rw [if_neg (by omega), Nat.div_eq_of_lt (show 64 < p by omega), zero_add, one_mul]
  refine ⟨by rw [h1, List.length_replicate, hlen], fun n => ?_⟩
  rw [h2, List.length_replicate, hlen, ← pattern hp hp2 hb odd n]
  have hz : bit (List.replicate ((64 / p + 1) * p / 64 + 1) 0) n = false := by
    unfold bit
    rw [List.getD_eq_getElem?_getD, List.getElem?_replicate]
    split_ifs <;> simp
  rw [hz]
  have hr : ∀ a, (if odd = true then half p (a * b % p) else a * b % p) < p := by
    intro a
    have := Nat.mod_lt (a * b) hp.pos
    split_ifs
    · exact (half_spec hp2 this).1
    · exact this
  simp only [Bool.false_eq_true, false_or, List.mem_range, mem_places hp2 (hr _)]
  constructor
  · rintro ⟨⟨a, e1, e2, e3, e4⟩, -⟩
    exact ⟨e4, a, e1, e2, e3⟩
  · rintro ⟨e4, a, e1, e2, e3⟩
    exact ⟨⟨a, e1, e2, e3, e4⟩, by omega⟩

/-! ## the rotation -/

/-- the pattern is `S`; the word at `a1` holds its bits from `64a` on, `s` of them, and the following words (cyclically)
the bits after these -/
structure Rot (S : ℕ → Prop) (wp s : ℕ) (he : List W) (a1 a : ℕ) : Prop where
  le : a1 ≤ wp
  len : he.length = wp + 1
  first : ∀ j, (he.getD a1 0).getLsbD j = true ↔ j < s ∧ S (64 * a + j)
  rest : ∀ k < wp, ∀ j < 64, (he.getD (if a1 + 1 + k ≤ wp then a1 + 1 + k else a1 + k - wp) 0).getLsbD j = true ↔
    S (64 * a + s + 64 * k + j)

theorem getD_set_self {l : List W} {i : ℕ} {x : W} (h : i < l.length) : (l.set i x).getD i 0 = x := by
  rw [List.getD_eq_getElem?_getD, List.getElem?_set, if_pos rfl, if_pos h]; rfl

theorem getD_set_ne {l : List W} {i j : ℕ} {x : W} (h : i ≠ j) : (l.set i x).getD j 0 = l.getD j 0 := by
  rw [List.getD_eq_getElem?_getD, List.getElem?_set, if_neg h, ← List.getD_eq_getElem?_getD]

theorem fill_spec {S : ℕ → Prop} {wp s : ℕ} (hwp : 0 < wp) (hs0 : 0 < s) (hs : s < 64)
    (hper : ∀ n, S (n + (64 * wp + s)) ↔ S n) (n : ℕ) {he : List W} {a1 a : ℕ} (h : Rot S wp s he a1 a) :
    (fill wp s n he a1).length = n ∧
    ∀ i < n, ∀ j < 64, ((fill wp s n he a1).getD i 0).getLsbD j = true ↔ S (64 * (a + i) + j) := by
  induction n generalizing he a1 a with
  | zero => simp [fill]
  | succ n ih =>
    rw [fill]
    obtain ⟨nx, hnx⟩ : ∃ x, (if a1 = wp then 0 else a1 + 1) = x := ⟨_, rfl⟩
    obtain ⟨w, hw⟩ : ∃ w, he.getD a1 0 ||| ((he.getD nx 0 &&& ~~~(BitVec.allOnes 64 <<< (64 - s))) <<< s) = w := ⟨_, rfl⟩
    rw [hnx, hw]
    have hle := h.le
    have hnx' : nx ≠ a1 ∧ nx ≤ wp := by rw [← hnx]; split_ifs <;> omega
    have hn0 : (if a1 + 1 + 0 ≤ wp then a1 + 1 + 0 else a1 + 0 - wp) = nx := by
      rw [← hnx]; split_ifs <;> omega
    have hnb : ∀ j < 64, (he.getD nx 0).getLsbD j = true ↔ S (64 * a + s + j) := by
      intro j hj
      have := h.rest 0 hwp j hj
      rw [hn0] at this
      simpa using this
    have hwb : ∀ j < 64, w.getLsbD j = true ↔ S (64 * a + j) := by
      intro j hj
      rw [← hw, BitVec.getLsbD_or, Bool.or_eq_true, h.first, BitVec.getLsbD_shiftLeft, BitVec.getLsbD_and,
        BitVec.getLsbD_not, BitVec.getLsbD_shiftLeft, BitVec.getLsbD_allOnes]
      by_cases hj2 : j < s
      · simp [hj2]
      · simp only [hj2, false_and, false_or, hj, decide_true, Bool.true_and, decide_false, Bool.not_false]
        have k1 : j - s < 64 := by omega
        have k2 : j - s < 64 - s := by omega
        simp only [k1, k2, decide_true, Bool.true_and, Bool.not_true, Bool.false_and, Bool.not_false, Bool.and_true]
        rw [hnb (j - s) k1, show 64 * a + s + (j - s) = 64 * a + j by omega]
    have hlen1 : (he.set a1 w).length = wp + 1 := by rw [List.length_set, h.len]
    have hnxv : (he.set a1 w).getD nx 0 = he.getD nx 0 := getD_set_ne hnx'.1.symm
    rw [hnxv]
    have hR : Rot S wp s ((he.set a1 w).set nx (he.getD nx 0 >>> (64 - s))) nx (a + 1) := by
      refine ⟨hnx'.2, by rw [List.length_set, hlen1], fun j => ?_, fun k hk j hj => ?_⟩
      · rw [getD_set_self (by omega), BitVec.getLsbD_ushiftRight]
        by_cases hj : j < s
        · rw [hnb _ (by omega), show 64 * a + s + (64 - s + j) = 64 * (a + 1) + j by omega]
          simp [hj]
        · rw [BitVec.getLsbD_of_ge _ _ (by omega)]
          simp [hj]
      · obtain ⟨i, hi⟩ : ∃ i, (if nx + 1 + k ≤ wp then nx + 1 + k else nx + k - wp) = i := ⟨_, rfl⟩
        rw [hi]
        have hin : nx ≠ i := by rw [← hi]; split_ifs <;> omega
        rw [getD_set_ne hin]
        by_cases hk2 : k = wp - 1
        · have : i = a1 := by
            rw [← hi, ← hnx]
            split_ifs <;> omega
          rw [this, getD_set_self (by rw [h.len]; omega), hwb j hj, ← hper,
            show 64 * a + j + (64 * wp + s) = 64 * (a + 1) + s + 64 * k + j by omega]
        · have hi2 : i = (if a1 + 1 + (k + 1) ≤ wp then a1 + 1 + (k + 1) else a1 + (k + 1) - wp) := by
            rw [← hi, ← hnx]
            split_ifs <;> omega
          have hia : a1 ≠ i := by rw [hi2]; split_ifs <;> omega
          rw [getD_set_ne hia, hi2, h.rest (k + 1) (by omega) j hj,
            show 64 * a + s + 64 * (k + 1) + j = 64 * (a + 1) + s + 64 * k + j by omega]
    obtain ⟨h1, h2⟩ := ih hR
    refine ⟨by rw [List.length_cons, h1], fun i hi j hj => ?_⟩
    cases i with
    | zero => rw [List.getD_cons_zero, hwb j hj, add_zero]
    | succ i => rw [List.getD_cons_succ, h2 i (by omega) j hj, show a + 1 + i = a + (i + 1) by omega]

/-- the words of the sieve for a denominator prime to `p` -/
theorem row_unit {c : ℕ → ℤ} {deg p b : ℕ} (hp : p.Prime) (hp2 : p % 2 = 1) (hb : b % p ≠ 0) (odd : Bool) :
    (row c deg p (b % p) odd).length = p ∧
    ∀ i < p, ∀ j < 64, ((row c deg p (b % p) odd).getD i 0).getLsbD j = true ↔ SqF c deg p (num odd (64 * i + j : ℕ)) b := by
  have hp0 := hp.pos
  have hp3 : 3 ≤ p := by have := hp.two_le; omega
  unfold row
  rw [if_neg hb]
  simp only
  have hdvd : ¬ p ∣ b % p := fun h => hb (Nat.eq_zero_of_dvd_of_lt h (Nat.mod_lt _ hp0))
  obtain ⟨h1, h2⟩ := help_spec (c := c) (deg := deg) hp hp2 hdvd odd
  have hSb : ∀ a : ℤ, SqF c deg p a ((b % p : ℕ) : ℤ) ↔ SqF c deg p a b := by
    intro a
    refine sq_congr ?_
    have hbb : ((b % p : ℕ) : ℤ) ≡ b [ZMOD p] := by push_cast; exact Int.mod_modEq _ _
    unfold F
    refine Int.ModEq.mul ?_ (by split_ifs <;> [exact hbb; rfl])
    refine Int.modEq_iff_dvd.mpr ?_
    rw [← Finset.sum_sub_distrib]
    exact Finset.dvd_sum fun i _ => ((hbb.pow i).mul_left _).dvd
  simp only [hSb] at h2
  obtain ⟨p1, hp1⟩ : ∃ x, (64 / p + 1) * p = x := ⟨_, rfl⟩
  rw [hp1] at h1 h2 ⊢
  have hb1 : 64 < p1 := by
    have e1 := Nat.div_add_mod 64 p
    have e2 := Nat.mod_lt 64 hp0
    rw [add_mul, one_mul, mul_comm] at hp1
    omega
  have hb2 : p1 < 64 + p ∨ p1 = p := by
    have e1 := Nat.div_add_mod 64 p
    rw [add_mul, one_mul, mul_comm] at hp1
    by_cases h : p < 64
    · left
      have e3 : 64 % p ≠ 0 := fun h0 => by
        have := (Nat.Prime.dvd_of_dvd_pow hp (show p ∣ 2 ^ 6 from Nat.dvd_of_mod_eq_zero h0))
        have := Nat.le_of_dvd (by norm_num) this
        omega
      omega
    · right
      rw [Nat.div_eq_of_lt (by omega), mul_zero, zero_add] at hp1
      omega
  have hs0 : p1 % 64 ≠ 0 := by
    rcases hb2 with h | h
    · by_cases h64 : p < 64
      · omega
      · rw [Nat.div_eq_of_lt (by omega), zero_add, one_mul] at hp1
        omega
    · omega
  have hwp : 0 < p1 / 64 := by omega
  have hwpp : p1 / 64 ≤ p := by omega
  obtain ⟨he, hhe⟩ : ∃ x, help c deg p (b % p) odd = x := ⟨_, rfl⟩
  rw [hhe] at h1 h2 ⊢
  have hdiv : p ∣ p1 := ⟨64 / p + 1, by rw [← hp1, mul_comm]⟩
  have hper : ∀ n : ℕ, SqF c deg p (num odd ((n + (64 * (p1 / 64) + p1 % 64) : ℕ) : ℤ)) b ↔ SqF c deg p (num odd (n : ℕ)) b := by
    intro n
    refine SqF_congr c deg (num_congr odd ?_)
    rw [Nat.div_add_mod]
    obtain ⟨k, hk⟩ := hdiv
    refine Int.modEq_iff_dvd.mpr ⟨-k, ?_⟩
    rw [hk]; push_cast; ring
  have hword : ∀ i j, j < 64 → ((he.getD i 0).getLsbD j = true ↔ 64 * i + j < p1 ∧ SqF c deg p (num odd (64 * i + j : ℕ)) b) := by
    intro i j hj
    have := h2 (64 * i + j)
    unfold bit at this
    rwa [show (64 * i + j) / 64 = i by omega, show (64 * i + j) % 64 = j by omega] at this
  have hR : Rot (fun n : ℕ => SqF c deg p (num odd (n : ℕ)) b) (p1 / 64) (p1 % 64) he (p1 / 64) (p1 / 64) := by
    refine ⟨le_rfl, h1, fun j => ?_, fun k hk j hj => ?_⟩
    · by_cases hj : j < 64
      · rw [hword _ _ hj]
        have : 64 * (p1 / 64) + j < p1 ↔ j < p1 % 64 := by omega
        rw [this]
      · rw [BitVec.getLsbD_of_ge _ _ (by omega)]
        simp only [Bool.false_eq_true, false_iff, not_and]
        intro h; omega
    · rw [if_neg (by omega), show p1 / 64 + k - p1 / 64 = k by omega, hword k j hj, ← hper (64 * k + j),
        show 64 * k + j + (64 * (p1 / 64) + p1 % 64) = 64 * (p1 / 64) + p1 % 64 + 64 * k + j by omega]
      exact and_iff_right (by omega)
  obtain ⟨f1, f2⟩ := fill_spec hwp (Nat.pos_of_ne_zero hs0) (Nat.mod_lt _ (by norm_num)) hper (p - p1 / 64) hR
  have hlt : (he.take (p1 / 64)).length = p1 / 64 := by rw [List.length_take, h1]; omega
  refine ⟨by rw [List.length_append, hlt, f1]; omega, fun i hi j hj => ?_⟩
  by_cases hi2 : i < p1 / 64
  · rw [List.getD_append _ _ _ _ (by omega), List.getD_eq_getElem?_getD, List.getElem?_take, if_pos hi2,
      ← List.getD_eq_getElem?_getD, hword i j hj]
    exact and_iff_right (by omega)
  · rw [List.getD_append_right _ _ _ _ (by omega), hlt, f2 _ (by omega) j hj, show p1 / 64 + (i - p1 / 64) = i by omega]

/-- the words for a denominator divisible by `p` -/
theorem row_zero (c : ℕ → ℤ) (deg : ℕ) {p b : ℕ} (hb : b % p = 0) (odd : Bool) :
    (row c deg p (b % p) odd).length = p ∧
    ∀ i < p, ∀ j < 64, ((row c deg p (b % p) odd).getD i 0).getLsbD j = leadOk c deg p := by
  unfold row
  rw [if_pos hb]
  refine ⟨List.length_replicate .., fun i hi j hj => ?_⟩
  rw [List.getD_eq_getElem?_getD, List.getElem?_replicate, if_pos hi, Option.getD_some]
  split_ifs with h
  · rw [BitVec.getLsbD_allOnes, h]; simp [hj]
  · rw [Bool.not_eq_true] at h
    rw [h]; simp

end Eclib.Stoll
