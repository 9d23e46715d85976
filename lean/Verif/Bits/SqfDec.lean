import Verif.Bits.Tri
import Verif.Bits.SqfModel
import Verif.Marith.Props
import Mathlib.Algebra.Squarefree.Basic
import Mathlib.RingTheory.Int.Basic
import Mathlib.Data.Nat.Squarefree
import Mathlib.Tactic.Linarith

/-!
# Squarefree integers supported on a list of primes, and bit masks
-/

namespace Eclib.Sqf

open Eclib.Marith (val div)

/-- equal modulo squares -/
def Sq (x y : ℤ) : Prop := IsSquare (x * y)

theorem Sq.refl (x : ℤ) : Sq x x := ⟨x, rfl⟩

theorem Sq.symm {x y : ℤ} (h : Sq x y) : Sq y x := by unfold Sq at *; rwa [mul_comm]

theorem Sq.trans {x y z : ℤ} (h1 : Sq x y) (h2 : Sq y z) (hy : y ≠ 0) : Sq x z := by
  obtain ⟨a, ha⟩ := h1
  obtain ⟨b, hb⟩ := h2
  have h : y ^ 2 ∣ (a * b) ^ 2 := ⟨x * z, by
    calc (a * b) ^ 2 = (a * a) * (b * b) := by ring
      _ = (x * y) * (y * z) := by rw [ha, hb]
      _ = _ := by ring⟩
  rw [Int.pow_dvd_pow_iff (by decide)] at h
  obtain ⟨c, hc⟩ := h
  refine ⟨c, ?_⟩
  have h2 : y ^ 2 * (x * z) = y ^ 2 * (c * c) := by
    calc y ^ 2 * (x * z) = (x * y) * (y * z) := by ring
      _ = (a * a) * (b * b) := by rw [ha, hb]
      _ = (a * b) * (a * b) := by ring
      _ = _ := by rw [hc]; ring
  exact mul_left_cancel₀ (pow_ne_zero 2 hy) h2

theorem Sq.mul {x y z w : ℤ} (h1 : Sq x y) (h2 : Sq z w) : Sq (x * z) (y * w) := by
  obtain ⟨a, ha⟩ := h1
  obtain ⟨b, hb⟩ := h2
  refine ⟨a * b, ?_⟩
  calc x * z * (y * w) = (x * y) * (z * w) := by ring
    _ = (a * a) * (b * b) := by rw [ha, hb]
    _ = _ := by ring

/-- squarefree integers are equal modulo squares only when they are equal -/
theorem sq_squarefree {x y : ℤ} (hx : Squarefree x) (hy : Squarefree y) (h : Sq x y) : x = y := by
  obtain ⟨k, hk⟩ := h
  have hx0 := hx.ne_zero
  have h1 : x ∣ k := by
    have h2 : x ∣ k ^ 2 := ⟨y, by rw [hk]; ring⟩
    exact (hx.dvd_pow_iff_dvd (by decide)).1 h2
  obtain ⟨t, rfl⟩ := h1
  have h2 : y = t * t * x := by
    have : x * y = x * (t * t * x) := by rw [hk]; ring
    exact mul_left_cancel₀ hx0 this
  have h3 : IsUnit t := hy t ⟨x, h2⟩
  have h4 : t * t = 1 := by rcases Int.isUnit_iff.1 h3 with rfl | rfl <;> rfl
  rw [h2, h4, one_mul]

theorem sqfmul_spec {x y : ℤ} (hx : Squarefree x) (hy : Squarefree y) :
    Squarefree (sqfmul x y) ∧ Sq (x * y) (sqfmul x y) := by
  have hg0 : (Int.gcd x y : ℤ) ≠ 0 := by
    intro h
    have : Int.gcd x y = 0 := by exact_mod_cast h
    exact hx.ne_zero (Int.gcd_eq_zero_iff.1 this).1
  obtain ⟨a, ha⟩ := Int.gcd_dvd_left (a := x) (b := y)
  obtain ⟨b, hb⟩ := Int.gcd_dvd_right (a := x) (b := y)
  obtain ⟨g, hg⟩ : ∃ g, g = Int.gcd x y := ⟨_, rfl⟩
  have hs : sqfmul x y = a * b := by
    simp only [sqfmul]
    rw [← hg] at hg0 ha hb ⊢
    rw [ha, hb, Int.mul_fdiv_cancel_left _ hg0, Int.mul_fdiv_cancel_left _ hg0]
  have hc : IsCoprime a b := by
    rw [Int.isCoprime_iff_gcd_eq_one]
    rw [← hg] at hg0 ha hb
    have h3 : g = g * Int.gcd a b := by
      conv_lhs => rw [hg, ha, hb, Int.gcd_mul_left, Int.natAbs_natCast]
    have hp : 0 < g := by
      rcases Nat.eq_zero_or_pos g with h | h
      · exact absurd (by rw [h]; rfl) hg0
      · exact h
    exact Nat.eq_of_mul_eq_mul_left hp (by rw [← h3, mul_one])
  rw [hs]
  refine ⟨?_, ?_⟩
  · rw [squarefree_mul_iff]
    exact ⟨hc.isRelPrime, hx.squarefree_of_dvd ⟨_, by rw [mul_comm]; exact ha⟩,
      hy.squarefree_of_dvd ⟨_, by rw [mul_comm]; exact hb⟩⟩
  · refine ⟨Int.gcd x y * (a * b), ?_⟩
    calc x * y * (a * b) = (Int.gcd x y * a) * (Int.gcd x y * b) * (a * b) := by
          rw [← ha, ← hb]
      _ = _ := by ring

/-- the product of the entries of a list selected by a mask -/
def decP : List ℤ → ℕ → ℤ
  | [], _ => 1
  | p :: l, m => (if m.testBit 0 then p else 1) * decP l (m / 2)

/-- a list of distinct positive primes -/
structure Base (ps : List ℤ) : Prop where
  prime : ∀ p ∈ ps, Prime p
  pos : ∀ p ∈ ps, 0 < p
  nodup : ps.Nodup

theorem Base.tail {p : ℤ} {ps : List ℤ} (h : Base (p :: ps)) : Base ps ∧ p ∉ ps ∧ Prime p ∧ 0 < p :=
  ⟨⟨fun q hq => h.prime q (List.mem_cons_of_mem _ hq), fun q hq => h.pos q (List.mem_cons_of_mem _ hq),
    (List.nodup_cons.1 h.nodup).2⟩, (List.nodup_cons.1 h.nodup).1, h.prime p List.mem_cons_self,
    h.pos p List.mem_cons_self⟩

theorem decP_pos {ps : List ℤ} (h : Base ps) (m : ℕ) : 0 < decP ps m := by
  induction ps generalizing m with
  | nil => exact one_pos
  | cons p ps ih =>
    obtain ⟨h1, _, _, h2⟩ := h.tail
    rw [decP]
    refine mul_pos ?_ (ih h1 _)
    split_ifs
    · exact h2
    · exact one_pos

theorem prime_eq {p q : ℤ} (hp : Prime p) (hq : Prime q) (hp0 : 0 < p) (hq0 : 0 < q) (h : p ∣ q) :
    p = q := by
  have := (hp.associated_of_dvd hq h)
  rw [Int.associated_iff_natAbs] at this
  omega

theorem dvd_decP {ps : List ℤ} (h : Base ps) {q : ℤ} (hq : Prime q) (hq0 : 0 < q) (m : ℕ) :
    q ∣ decP ps m ↔ ∃ i, ps[i]? = some q ∧ m.testBit i = true := by
  induction ps generalizing m with
  | nil =>
    simp only [decP]
    constructor
    · intro h1; exact absurd (isUnit_of_dvd_one h1) hq.not_isUnit
    · rintro ⟨i, hi, _⟩; simp at hi
  | cons p ps ih =>
    obtain ⟨h1, _, h2, h3⟩ := h.tail
    rw [decP, hq.dvd_mul, ih h1]
    constructor
    · rintro (hd | ⟨i, hi, hb⟩)
      · by_cases hb : m.testBit 0 = true
        · rw [if_pos hb] at hd
          exact ⟨0, by rw [prime_eq hq h2 hq0 h3 hd]; rfl, hb⟩
        · rw [if_neg hb] at hd
          exact absurd (isUnit_of_dvd_one hd) hq.not_isUnit
      · exact ⟨i + 1, by simpa using hi, by rw [Nat.testBit_succ]; exact hb⟩
    · rintro ⟨i, hi, hb⟩
      rcases i with _ | i
      · left
        rw [if_pos hb]
        have : p = q := by simpa using hi
        rw [this]
      · right
        exact ⟨i, by simpa using hi, by rw [← Nat.testBit_succ]; exact hb⟩

theorem squarefree_decP {ps : List ℤ} (h : Base ps) (m : ℕ) : Squarefree (decP ps m) := by
  induction ps generalizing m with
  | nil => exact squarefree_one
  | cons p ps ih =>
    obtain ⟨h1, h2, h3, h4⟩ := h.tail
    rw [decP]
    by_cases hb : m.testBit 0 = true
    · rw [if_pos hb, squarefree_mul_iff]
      refine ⟨IsCoprime.isRelPrime ?_, h3.irreducible.squarefree, ih h1 _⟩
      rw [h3.coprime_iff_not_dvd, dvd_decP h1 h3 h4]
      rintro ⟨i, hi, _⟩
      exact h2 (List.mem_of_getElem? hi)
    · rw [if_neg hb, one_mul]; exact ih h1 _

/-- the signed version: bit 0 is the sign -/
theorem dec_eq (ps : List ℤ) (m : ℕ) :
    decP (-1 :: ps) m = (if m.testBit 0 then -1 else 1) * decP ps (m / 2) := rfl

theorem squarefree_dec {ps : List ℤ} (h : Base ps) (m : ℕ) : Squarefree (decP (-1 :: ps) m) := by
  have := squarefree_decP h (m / 2)
  rw [dec_eq]
  split_ifs
  · rw [neg_one_mul]
    intro x hx
    exact this x ((dvd_neg).1 hx)
  · rwa [one_mul]

theorem dec_neg {ps : List ℤ} (h : Base ps) (m : ℕ) :
    decP (-1 :: ps) m < 0 ↔ m.testBit 0 = true := by
  have := decP_pos h (m / 2)
  rw [dec_eq]
  split_ifs with hb
  · simp only [hb, iff_true]; omega
  · exact iff_of_false (by omega) hb

theorem dvd_dec {ps : List ℤ} (h : Base ps) {q : ℤ} (hq : Prime q) (hq0 : 0 < q) (m : ℕ) :
    q ∣ decP (-1 :: ps) m ↔ ∃ i, ps[i]? = some q ∧ m.testBit (i + 1) = true := by
  have h1 : q ∣ decP (-1 :: ps) m ↔ q ∣ decP ps (m / 2) := by
    rw [dec_eq]; split_ifs
    · rw [neg_one_mul, dvd_neg]
    · rw [one_mul]
  rw [h1, dvd_decP h hq hq0]
  simp only [Nat.testBit_succ]

theorem dvd_dec_get {ps : List ℤ} (h : Base ps) {i : ℕ} {q : ℤ} (hi : ps[i]? = some q) (m : ℕ) :
    q ∣ decP (-1 :: ps) m ↔ m.testBit (i + 1) = true := by
  have hm := List.mem_of_getElem? hi
  rw [dvd_dec h (h.prime q hm) (h.pos q hm)]
  constructor
  · rintro ⟨j, hj, hb⟩
    have : i = j := by
      obtain ⟨hi', hi2⟩ := List.getElem?_eq_some_iff.1 hi
      obtain ⟨hj', hj2⟩ := List.getElem?_eq_some_iff.1 hj
      exact (List.Nodup.getElem_inj_iff h.nodup).1 (hi2.trans hj2.symm)
    rw [this]; exact hb
  · intro hb; exact ⟨i, hi, hb⟩

theorem sq_decP_xor (l : List ℤ) (a b : ℕ) :
    Sq (decP l a * decP l b) (decP l (a ^^^ b)) := by
  induction l generalizing a b with
  | nil => exact ⟨1, rfl⟩
  | cons p l ih =>
    have h1 : (a ^^^ b) / 2 = a / 2 ^^^ b / 2 := by
      apply Nat.eq_of_testBit_eq
      intro i
      rw [← Nat.testBit_succ, Nat.testBit_xor, Nat.testBit_xor, Nat.testBit_succ, Nat.testBit_succ]
    have h2 : Sq ((if a.testBit 0 then p else 1) * (if b.testBit 0 then p else 1))
        (if (a ^^^ b).testBit 0 then p else 1) := by
      rw [Nat.testBit_xor]
      cases a.testBit 0 <;> cases b.testBit 0
      · exact ⟨1, by simp⟩
      · exact ⟨p, by simp⟩
      · exact ⟨p, by simp⟩
      · exact ⟨p, by simp⟩
    have h3 := h2.mul (ih (a / 2) (b / 2))
    rw [decP, decP, decP, h1]
    have : (if a.testBit 0 = true then p else 1) * decP l (a / 2) *
        ((if b.testBit 0 = true then p else 1) * decP l (b / 2)) =
        (if a.testBit 0 = true then p else 1) * (if b.testBit 0 = true then p else 1) *
          (decP l (a / 2) * decP l (b / 2)) := by ring
    rw [this]; exact h3

theorem sqfmul_dec {ps : List ℤ} (h : Base ps) (a b : ℕ) :
    sqfmul (decP (-1 :: ps) a) (decP (-1 :: ps) b) = decP (-1 :: ps) (a ^^^ b) := by
  obtain ⟨h1, h2⟩ := sqfmul_spec (squarefree_dec h a) (squarefree_dec h b)
  have h3 := sq_decP_xor (-1 :: ps) a b
  refine sq_squarefree h1 (squarefree_dec h _) (h2.symm.trans h3 ?_)
  exact mul_ne_zero (squarefree_dec h a).ne_zero (squarefree_dec h b).ne_zero

theorem dec_inj {ps : List ℤ} (h : Base ps) {a b : ℕ} (ha : a < 2 ^ (ps.length + 1))
    (hb : b < 2 ^ (ps.length + 1)) (he : decP (-1 :: ps) a = decP (-1 :: ps) b) : a = b := by
  apply Nat.eq_of_testBit_eq
  intro i
  rcases i with _ | i
  · rw [Bool.eq_iff_iff, ← dec_neg h, ← dec_neg h, he]
  · by_cases hi : i < ps.length
    · have hg : ps[i]? = some ps[i] := List.getElem?_eq_getElem hi
      rw [Bool.eq_iff_iff, ← dvd_dec_get h hg, ← dvd_dec_get h hg, he]
    · have hp : 2 ^ (ps.length + 1) ≤ 2 ^ (i + 1) := Nat.pow_le_pow_right (by decide) (by omega)
      rw [Nat.testBit_lt_two_pow (by omega), Nat.testBit_lt_two_pow (by omega)]

theorem dec_one {ps : List ℤ} (h : Base ps) {a : ℕ} (ha : a < 2 ^ (ps.length + 1)) :
    decP (-1 :: ps) a = 1 ↔ a = 0 := by
  have h0 : ∀ l : List ℤ, decP l 0 = 1 := by
    intro l; induction l with
    | nil => rfl
    | cons p l ih => rw [decP]; simp [ih]
  constructor
  · intro he
    exact dec_inj h ha (by positivity) (he.trans (h0 _).symm)
  · rintro rfl; exact h0 _

/-! ## the mask of an integer -/

theorem exists_decP {ps : List ℤ} (h : Base ps) {s : ℤ} (hs : Squarefree s)
    (hp : ∀ q : ℤ, Prime q → 0 < q → q ∣ s → q ∈ ps) :
    ∃ m < 2 ^ ps.length, |s| = decP ps m := by
  induction ps generalizing s with
  | nil =>
    refine ⟨0, by simp, ?_⟩
    by_contra hne
    have h1 : s.natAbs ≠ 1 := by rw [decP, Int.abs_eq_natAbs] at hne; exact_mod_cast hne
    obtain ⟨p, hpp, hps⟩ := Nat.exists_prime_and_dvd h1
    have := hp p (Nat.prime_iff_prime_int.1 hpp) (by exact_mod_cast hpp.pos)
      (Int.natCast_dvd.2 hps)
    simp at this
  | cons p ps ih =>
    obtain ⟨h1, h2, h3, h4⟩ := h.tail
    by_cases hd : p ∣ s
    · obtain ⟨t, rfl⟩ := hd
      obtain ⟨hpt, _, ht⟩ := squarefree_mul_iff.1 hs
      obtain ⟨m, hm, he⟩ := ih h1 ht (fun q hq hq0 hqt => by
        rcases List.mem_cons.1 (hp q hq hq0 (hqt.mul_left p)) with rfl | hmem
        · exact absurd (hpt dvd_rfl hqt) hq.not_isUnit
        · exact hmem)
      refine ⟨2 * m + 1, ?_, ?_⟩
      · rw [List.length_cons, pow_succ]; omega
      · have hb : (2 * m + 1).testBit 0 = true := by simp
        rw [decP, if_pos hb, abs_mul, he, abs_of_pos h4]
        congr 2; omega
    · obtain ⟨m, hm, he⟩ := ih h1 hs (fun q hq hq0 hqt => by
        rcases List.mem_cons.1 (hp q hq hq0 hqt) with rfl | hmem
        · exact absurd hqt hd
        · exact hmem)
      refine ⟨2 * m, ?_, ?_⟩
      · rw [List.length_cons, pow_succ]; omega
      · have hb : (2 * m).testBit 0 = false := by simp
        rw [decP, hb, he]
        simp

theorem exists_dec {ps : List ℤ} (h : Base ps) {s : ℤ} (hs : Squarefree s)
    (hp : ∀ q : ℤ, Prime q → 0 < q → q ∣ s → q ∈ ps) :
    ∃ m < 2 ^ (ps.length + 1), s = decP (-1 :: ps) m := by
  obtain ⟨m, hm, he⟩ := exists_decP h hs hp
  rcases lt_or_ge s 0 with h0 | h0
  · refine ⟨2 * m + 1, by rw [pow_succ]; omega, ?_⟩
    have hb : (2 * m + 1).testBit 0 = true := by simp
    have h2 : (2 * m + 1) / 2 = m := by omega
    rw [dec_eq, if_pos hb, h2, ← he, abs_of_neg h0]; ring
  · refine ⟨2 * m, by rw [pow_succ]; omega, ?_⟩
    have hb : (2 * m).testBit 0 = false := by simp
    have h2 : (2 * m) / 2 = m := by omega
    rw [dec_eq, hb, h2, ← he, abs_of_nonneg h0]; simp

/-- the parity of the valuation of `s * t^2` -/
theorem val_parity {p s t : ℤ} (hp : Prime p) (hs : Squarefree s) (ht : t ≠ 0) :
    val p (s * t ^ 2) % 2 = 1 ↔ p ∣ s := by
  have hp2 : 2 ≤ |p| := by
    have := hp.ne_zero
    have h1 := hp.not_isUnit
    rw [Int.isUnit_iff] at h1
    rw [Int.abs_eq_natAbs]; omega
  have hval : ∀ (e : ℕ) (n c : ℤ), n ≠ 0 → n = p ^ e * c → ¬ p ∣ c → val p n = e := by
    intro e n c hn h1 h2
    have := (Marith.Props.C06_val_big p n).1 hp2 hn
    rw [Marith.val_eq]
    exact (Arith.Props.C06_val_unique p n e hp2 hn
      (Marith.exact_of_factor hp.ne_zero h1 h2)).symm
  obtain ⟨k, t', ht', rfl⟩ := (FiniteMultiplicity.of_prime_left hp ht).exists_eq_pow_mul_and_not_dvd.elim
    (fun t' h => (⟨_, t', h.2, h.1⟩ : ∃ k t', ¬ p ∣ t' ∧ t = p ^ k * t'))
  have hn : s * (p ^ k * t') ^ 2 ≠ 0 := mul_ne_zero hs.ne_zero (pow_ne_zero _ ht)
  have ht2 : ¬ p ∣ t' ^ 2 := fun h => ht' (hp.dvd_of_dvd_pow h)
  by_cases hd : p ∣ s
  · obtain ⟨s', rfl⟩ := hd
    have hs' : ¬ p ∣ s' := fun h => by
      obtain ⟨r, _, _⟩ := squarefree_mul_iff.1 hs
      exact hp.not_isUnit (r dvd_rfl h)
    rw [hval (2 * k + 1) _ (s' * t' ^ 2) hn (by ring) (fun h => (hp.dvd_mul.1 h).elim hs' ht2)]
    simp only [dvd_mul_right, iff_true]; omega
  · rw [hval (2 * k) _ (s * t' ^ 2) hn (by ring) (fun h => (hp.dvd_mul.1 h).elim hd ht2)]
    simp only [hd, iff_false]; omega

theorem foldl_sq (l : List ℤ) (c : ℤ) (P : ℤ → Prop) [DecidablePred P] :
    l.foldl (fun ans p => if P p then ans * p else ans) c =
      c * l.foldl (fun ans p => if P p then ans * p else ans) 1 := by
  induction l generalizing c with
  | nil => simp
  | cons p l ih =>
    rw [List.foldl_cons, List.foldl_cons, ih, ih (if P p then 1 * p else 1)]
    split_ifs <;> ring

theorem sqfred_abs {ps : List ℤ} (h : Base ps) (m : ℕ) (P : ℤ → Prop) [DecidablePred P]
    (hP : ∀ i p, ps[i]? = some p → (P p ↔ m.testBit i = true)) :
    ps.foldl (fun ans p => if P p then ans * p else ans) 1 = decP ps m := by
  induction ps generalizing m with
  | nil => rfl
  | cons p ps ih =>
    obtain ⟨h1, _, _, _⟩ := h.tail
    rw [List.foldl_cons, foldl_sq, decP, ih h1 (m / 2)]
    · have := hP 0 p rfl
      by_cases hb : P p
      · rw [if_pos hb, if_pos (this.1 hb), one_mul]
      · rw [if_neg hb, if_neg (fun h => hb (this.2 h))]
    · intro i q hq
      rw [hP (i + 1) q (by simpa using hq), Nat.testBit_succ]

theorem sqfred_eq {ps : List ℤ} (h : Base ps) {t : ℤ} (ht : t ≠ 0) (m : ℕ) :
    sqfred (decP (-1 :: ps) m * t ^ 2) ps = decP (-1 :: ps) m := by
  rw [sqfred, foldl_sq, sqfred_abs h (m / 2)]
  · rw [dec_eq]
    congr 1
    have h1 : 0 < t ^ 2 := by positivity
    have h2 := decP_pos h (m / 2)
    split_ifs
    · rw [Int.sign_eq_neg_one_iff_neg]; nlinarith
    · rw [Int.sign_eq_one_iff_pos]; positivity
  · intro i p hi
    have hm := List.mem_of_getElem? hi
    rw [val_parity (h.prime p hm) (squarefree_dec h m) ht, dvd_dec_get h hi, Nat.testBit_succ]

end Eclib.Sqf
