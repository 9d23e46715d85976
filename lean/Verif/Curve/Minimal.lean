import Mathlib.Data.Nat.Factors
import Mathlib.Data.Nat.Factorization.Basic
import Mathlib.RingTheory.Int.Basic
import Mathlib.Data.Rat.Defs
import Mathlib.Tactic.FieldSimp
import Verif.Curve.Kraus

/-!
# C30: global minimal models
-/

namespace Eclib.Curve

open Marith (mod div val isqrt)

/-- Kraus's condition at 2 -/
def Loc2 (c4 c6 : ℤ) : Prop := 4 ∣ c6 + 1 ∨ (16 ∣ c4 ∧ (32 ∣ c6 ∨ 32 ∣ c6 - 8))

/-- Kraus's condition at 3 -/
def Loc3 (c6 : ℤ) : Prop := 9 ∣ c6 → 27 ∣ c6

theorem kraus_iff (c4 c6 : ℤ) : Kraus c4 c6 ↔
    c4 ^ 3 - c6 ^ 2 ≠ 0 ∧ 1728 ∣ c4 ^ 3 - c6 ^ 2 ∧ Loc3 c6 ∧ Loc2 c4 c6 := by
  have : Loc3 c6 ↔ ¬ 27 ∣ c6 - 9 ∧ ¬ 27 ∣ c6 + 9 := by unfold Loc3; omega
  rw [this]
  unfold Kraus Loc2
  tauto

theorem sq_odd {w : ℤ} (hw : ¬ (2 : ℤ) ∣ w) : ∃ k, w ^ 2 = 1 + 8 * k := by
  obtain ⟨l, hl⟩ : ∃ l, w = 2 * l + 1 := ⟨w / 2, by omega⟩
  rcases Int.even_or_odd' l with ⟨m, hm | hm⟩
  · exact ⟨2 * m ^ 2 + m, by rw [hl, hm]; ring⟩
  · exact ⟨2 * m ^ 2 + 3 * m + 1, by rw [hl, hm]; ring⟩

theorem Loc2_unit {w : ℤ} (hw : ¬ (2 : ℤ) ∣ w) (c4 c6 : ℤ) :
    Loc2 (w ^ 4 * c4) (w ^ 6 * c6) ↔ Loc2 c4 c6 := by
  obtain ⟨k, hk⟩ := sq_odd hw
  have h4 : w ^ 4 * c4 = c4 + 16 * ((k + 4 * k ^ 2) * c4) := by
    have : w ^ 4 = (w ^ 2) ^ 2 := by ring
    rw [this, hk]; ring
  have h6 : w ^ 6 * c6 = c6 + 8 * ((3 * k) * c6) + 32 * ((6 * k ^ 2 + 16 * k ^ 3) * c6) := by
    have : w ^ 6 = (w ^ 2) ^ 3 := by ring
    rw [this, hk]; ring
  rw [h4, h6]
  have key : ∀ a : ℤ, 4 ∣ c6 → 32 ∣ 8 * ((3 * k) * c6) := by
    rintro a ⟨m, rfl⟩; exact ⟨3 * k * m, by ring⟩
  unfold Loc2
  generalize (k + 4 * k ^ 2) * c4 = A
  generalize (6 * k ^ 2 + 16 * k ^ 3) * c6 = B at *
  generalize (3 * k) * c6 = C at *
  have := key 0
  omega

theorem Loc3_unit {w : ℤ} (hw : ¬ (3 : ℤ) ∣ w) (c6 : ℤ) : Loc3 (w ^ 6 * c6) ↔ Loc3 c6 := by
  have p3 : Prime (3 : ℤ) := Int.prime_three
  have hw6 : ¬ (3 : ℤ) ∣ w ^ 6 := fun h => hw (p3.dvd_of_dvd_pow h)
  have a : (9 : ℤ) ∣ w ^ 6 * c6 ↔ 9 ∣ c6 :=
    ⟨fun h => p3.pow_dvd_of_dvd_mul_left 2 hw6 h, fun h => Dvd.dvd.mul_left h _⟩
  have b : (27 : ℤ) ∣ w ^ 6 * c6 ↔ 27 ∣ c6 :=
    ⟨fun h => p3.pow_dvd_of_dvd_mul_left 3 hw6 h, fun h => Dvd.dvd.mul_left h _⟩
  unfold Loc3; rw [a, b]

theorem dvd_of_pow12 {u c4 c6 D : ℤ} (hD : 1728 * D = c4 ^ 3 - c6 ^ 2) (h6 : u ^ 12 ∣ c6 ^ 2)
    (h : u ^ 12 ∣ D) : u ^ 4 ∣ c4 ∧ u ^ 6 ∣ c6 := by
  constructor
  · rw [← Int.pow_dvd_pow_iff (n := 3) (by norm_num)]
    have e : c4 ^ 3 = 1728 * D + c6 ^ 2 := by rw [hD]; ring
    rw [e, ← pow_mul]
    exact dvd_add (Dvd.dvd.mul_left h _) h6
  · rw [← Int.pow_dvd_pow_iff (n := 2) (by norm_num), ← pow_mul]
    exact h6

theorem prime_le_of_pow_dvd {p g : ℤ} (hp : 2 ≤ |p|) (hg : g ≠ 0) (k : ℕ) :
    p ^ k ∣ g ↔ k ≤ val p g := by
  obtain ⟨h1, h2⟩ := (Marith.Props.C06_val_big p g).1 hp hg
  constructor
  · intro h
    by_contra hlt
    exact h2 (dvd_trans (pow_dvd_pow p (by omega)) h)
  · intro h; exact dvd_trans (pow_dvd_pow p h) h1

/-- the test made in the code at 2 -/
theorem test2 (x y : ℤ) :
    ((if mod y 32 < 0 then mod y 32 + 32 else mod y 32).tmod 4 ≠ 3 &&
      !(mod x 16 = 0 && ((if mod y 32 < 0 then mod y 32 + 32 else mod y 32) = 0
        || (if mod y 32 < 0 then mod y 32 + 32 else mod y 32) = 8))) = true ↔ ¬ Loc2 x y := by
  obtain ⟨⟨j, hj⟩, l1, l2⟩ := Marith.Props.C04_mod_big y 32 (by norm_num)
  obtain ⟨⟨i, hi⟩, k1, k2⟩ := Marith.Props.C04_mod_big x 16 (by norm_num)
  norm_num at l1 l2 k1 k2
  obtain ⟨b, hb⟩ : ∃ b, b = (if mod y 32 < 0 then mod y 32 + 32 else mod y 32) := ⟨_, rfl⟩
  rw [← hb]
  have hb' : 0 ≤ b ∧ b < 32 ∧ 32 ∣ b - y := by
    rw [hb]; split_ifs <;> omega
  have ht : b.tmod 4 = b % 4 := Int.tmod_eq_emod_of_nonneg hb'.1
  simp only [Bool.and_eq_true, Bool.not_eq_true', Bool.and_eq_false_iff, Bool.or_eq_false_iff,
    decide_eq_true_iff, decide_eq_false_iff_not, ht, Loc2, ne_eq]
  generalize mod x 16 = a at *
  omega

/-- the local exponent computed by the code -/
theorem minExp_spec {c4 c6 D p : ℤ} (hD : 1728 * D = c4 ^ 3 - c6 ^ 2) (hD0 : D ≠ 0)
    (hK : Kraus c4 c6) (hp : Prime p) (hp0 : 0 < p) :
    ∃ e d : ℕ, (minExp c4 c6 (Int.gcd (c6 * c6) D) p) = e ∧ e ≤ d ∧ d = val p (Int.gcd (c6 * c6) D) / 12 ∧
      p ^ (12 * d) ∣ c6 ^ 2 ∧ p ^ (12 * d) ∣ D ∧
      (p = 2 → (∃ x y, c4 = (2 ^ e) ^ 4 * x ∧ c6 = (2 ^ e) ^ 6 * y ∧ Loc2 x y) ∧
        (e < d → e + 1 = d ∧ ∀ x y, c4 = (2 ^ d) ^ 4 * x → c6 = (2 ^ d) ^ 6 * y → ¬ Loc2 x y)) ∧
      (p = 3 → (∃ y, c6 = (3 ^ e) ^ 6 * y ∧ Loc3 y) ∧
        (e < d → e + 1 = d ∧ ∀ y, c6 = (3 ^ d) ^ 6 * y → ¬ Loc3 y)) ∧
      (p ≠ 2 → p ≠ 3 → e = d) := by
  obtain ⟨g, hg⟩ : ∃ g : ℤ, g = Int.gcd (c6 * c6) D := ⟨_, rfl⟩
  rw [← hg]
  have hp2 : 2 ≤ |p| := by
    rw [abs_of_pos hp0]
    have := hp.ne_one
    omega
  have hg0 : g ≠ 0 := by
    rw [hg]; simp [Int.gcd_eq_zero_iff, hD0]
  obtain ⟨d, hd⟩ : ∃ d : ℕ, d = val p g / 12 := ⟨_, rfl⟩
  have hgd : p ^ (12 * d) ∣ g := (prime_le_of_pow_dvd hp2 hg0 _).2 (by omega)
  have hg6 : p ^ (12 * d) ∣ c6 ^ 2 := by
    rw [hg] at hgd
    rw [pow_two]
    exact dvd_trans hgd (Int.gcd_dvd_left _ _)
  have hgD : p ^ (12 * d) ∣ D := by
    rw [hg] at hgd
    exact dvd_trans hgd (Int.gcd_dvd_right _ _)
  obtain ⟨⟨x, hx⟩, ⟨y, hy⟩⟩ := dvd_of_pow12 (u := p ^ d) hD (by rw [← pow_mul, mul_comm d]; exact hg6)
    (by rw [← pow_mul, mul_comm d]; exact hgD)
  have hdi : ((val p g : ℕ) : ℤ) / 12 = (d : ℤ) := by rw [hd]; norm_num
  have hpd : p ^ d ≠ 0 := pow_ne_zero _ hp.ne_zero
  obtain ⟨-, -, k3, k2⟩ := (kraus_iff c4 c6).1 hK
  unfold minExp
  simp only [hdi]
  by_cases h2 : p = 2
  · subst h2
    rw [if_pos rfl]
    have t4 : c4.tdiv (2 ^ (4 * (d : ℤ)).toNat) = x := by
      have : (4 * (d : ℤ)).toNat = d * 4 := by omega
      rw [this, pow_mul, hx]
      exact Int.mul_tdiv_cancel_left _ (pow_ne_zero _ hpd)
    have t6 : c6.tdiv (2 ^ (6 * (d : ℤ)).toNat) = y := by
      have : (6 * (d : ℤ)).toNat = d * 6 := by omega
      rw [this, pow_mul, hy]
      exact Int.mul_tdiv_cancel_left _ (pow_ne_zero _ hpd)
    rw [t4, t6]
    have uniq : ∀ x' y', c4 = (2 ^ d) ^ 4 * x' → c6 = (2 ^ d) ^ 6 * y' → x' = x ∧ y' = y := by
      intro x' y' h1 h2
      rw [hx] at h1; rw [hy] at h2
      exact ⟨(mul_left_cancel₀ (pow_ne_zero _ hpd) h1).symm,
        (mul_left_cancel₀ (pow_ne_zero _ hpd) h2).symm⟩
    by_cases hL : Loc2 x y
    · rw [if_neg (by rw [test2]; exact not_not.2 hL)]
      refine ⟨d, d, rfl, le_rfl, hd, hg6, hgD, ?_, by norm_num, by norm_num⟩
      intro _
      exact ⟨⟨x, y, hx, hy, hL⟩, fun h => absurd h (lt_irrefl _)⟩
    · rw [if_pos ((test2 x y).2 hL)]
      have hd0 : d ≠ 0 := by
        intro h
        subst h
        apply hL
        simpa [hx, hy] using k2
      obtain ⟨e, rfl⟩ : ∃ e, d = e + 1 := ⟨d - 1, by omega⟩
      refine ⟨e, e + 1, by push_cast; ring, by omega, hd, hg6, hgD, ?_, by norm_num, by norm_num⟩
      intro _
      refine ⟨⟨16 * x, 64 * y, by rw [hx]; ring, by rw [hy]; ring, Or.inr ⟨Dvd.intro _ rfl,
        Or.inl ⟨2 * y, by ring⟩⟩⟩, fun _ => ⟨rfl, ?_⟩⟩
      intro x' y' h1 h2
      obtain ⟨rfl, rfl⟩ := uniq x' y' h1 h2
      exact hL
  · rw [if_neg h2]
    by_cases h3 : p = 3
    · subst h3
      rw [if_pos rfl]
      have uniq : ∀ y', c6 = (3 ^ d) ^ 6 * y' → y' = y := by
        intro y' h2
        rw [hy] at h2
        exact (mul_left_cancel₀ (pow_ne_zero _ hpd) h2).symm
      have htest : ((val 3 c6 : ℕ) : ℤ) = 6 * (d : ℤ) + 2 ↔ (¬ Loc3 y ∨ (c6 = 0 ∧ 99999 = 6 * d + 2)) := by
        by_cases hc6 : c6 = 0
        · have : val 3 c6 = 99999 := (Marith.Props.C06_val_big 3 c6).2 (Or.inl hc6)
          rw [this]
          have : y = 0 := by
            rw [hc6] at hy
            rcases mul_eq_zero.1 hy.symm with h | h
            · exact absurd h (pow_ne_zero _ hpd)
            · exact h
          have hL : Loc3 y := by rw [this]; unfold Loc3; norm_num
          simp only [hL, hc6, not_true, false_or, true_and]
          omega
        · have hiff := fun k => prime_le_of_pow_dvd (p := 3) (by norm_num) hc6 k
          have a : (9 : ℤ) ∣ y ↔ 6 * d + 2 ≤ val 3 c6 := by
            rw [← hiff, hy]
            have : (3 : ℤ) ^ (6 * d + 2) = (3 ^ d) ^ 6 * 9 := by rw [pow_add, mul_comm 6, pow_mul]; norm_num
            rw [this]
            exact (mul_dvd_mul_iff_left (pow_ne_zero _ hpd)).symm
          have b : (27 : ℤ) ∣ y ↔ 6 * d + 3 ≤ val 3 c6 := by
            rw [← hiff, hy]
            have : (3 : ℤ) ^ (6 * d + 3) = (3 ^ d) ^ 6 * 27 := by rw [pow_add, mul_comm 6, pow_mul]; norm_num
            rw [this]
            exact (mul_dvd_mul_iff_left (pow_ne_zero _ hpd)).symm
          unfold Loc3
          rw [a, b]
          simp only [hc6, false_and, or_false]
          omega
      have h99 : ¬ (c6 = 0 ∧ 99999 = 6 * d + 2) := by rintro ⟨-, h⟩; omega
      simp only [h99, or_false] at htest
      by_cases hL : Loc3 y
      · rw [if_neg (by rw [htest]; exact not_not.2 hL)]
        refine ⟨d, d, rfl, le_rfl, hd, hg6, hgD, by norm_num, ?_, by norm_num⟩
        intro _
        exact ⟨⟨y, hy, hL⟩, fun h => absurd h (lt_irrefl _)⟩
      · rw [if_pos (htest.2 hL)]
        have hd0 : d ≠ 0 := by
          intro h
          subst h
          apply hL
          simpa [hy] using k3
        obtain ⟨e, rfl⟩ : ∃ e, d = e + 1 := ⟨d - 1, by omega⟩
        refine ⟨e, e + 1, by push_cast; ring, by omega, hd, hg6, hgD, by norm_num, ?_, by norm_num⟩
        intro _
        refine ⟨⟨729 * y, by rw [hy]; ring, ?_⟩, fun _ => ⟨rfl, ?_⟩⟩
        · intro _; exact ⟨27 * y, by ring⟩
        · intro y' h2
          rw [uniq y' h2]
          exact hL
    · rw [if_neg h3]
      exact ⟨d, d, rfl, le_rfl, hd, hg6, hgD, fun h => absurd h h2, fun h => absurd h h3,
        fun _ _ => rfl⟩

theorem minU_eq (c4 c6 g : ℤ) (ps : List ℤ) (u : ℤ) : minU c4 c6 g ps u =
    u * (ps.map fun p => p ^ (minExp c4 c6 g p).toNat).prod := by
  induction ps generalizing u with
  | nil => simp [minU]
  | cons p ps ih =>
    rw [minU, ih]
    simp only [List.map_cons, List.prod_cons]
    split_ifs with h
    · ring
    · have : (minExp c4 c6 g p).toNat = 0 := by omega
      rw [this]; ring

/-- the contract of `pdivs`: the distinct positive primes dividing its argument -/
def PdivsOk (pdivs : ℤ → List ℤ) : Prop :=
  ∀ n : ℤ, n ≠ 0 → (pdivs n).Nodup ∧ ∀ p, p ∈ pdivs n ↔ (0 < p ∧ Prime p ∧ p ∣ n)

theorem int_coprime {p q : ℤ} (hp : Prime p) (hq : Prime q) (hp0 : 0 < p) (hq0 : 0 < q)
    (h : p ≠ q) : IsCoprime p q := by
  rw [Prime.coprime_iff_not_dvd hp]
  intro hd
  have := (hp.irreducible.associated_of_dvd hq.irreducible hd)
  exact h (Int.eq_of_associated_of_nonneg this hp0.le hq0.le)

/-- the product over a list of distinct primes, split at one of them -/
theorem prod_split {ps : List ℤ} (hps : ∀ p ∈ ps, 0 < p ∧ Prime p) (hnd : ps.Nodup) (e : ℤ → ℕ)
    {q : ℤ} (hq0 : 0 < q) (hq : Prime q) :
    (q ∉ ps → ¬ q ∣ (ps.map fun p => p ^ e p).prod) ∧
    (q ∈ ps → ∃ w, (ps.map fun p => p ^ e p).prod = q ^ e q * w ∧ ¬ q ∣ w) := by
  induction ps with
  | nil => 
    constructor
    · intro _ h; exact hq.not_isUnit (isUnit_of_dvd_one (by simpa using h))
    · intro h; simp at h
  | cons p ps ih =>
    rw [List.nodup_cons] at hnd
    obtain ⟨ih1, ih2⟩ := ih (fun p hp => hps p (List.mem_cons_of_mem _ hp)) hnd.2
    obtain ⟨hp0, hp⟩ := hps p List.mem_cons_self
    have hne : ∀ k, q ≠ p → ¬ q ∣ p ^ k := by
      intro k h hd
      have := hq.dvd_of_dvd_pow hd
      have h2 := int_coprime hq hp hq0 hp0 h
      rw [Prime.coprime_iff_not_dvd hq] at h2
      exact h2 this
    simp only [List.map_cons, List.prod_cons, List.mem_cons, not_or]
    constructor
    · rintro ⟨h1, h2⟩ hd
      rcases hq.dvd_or_dvd hd with h | h
      · exact hne _ h1 h
      · exact ih1 h2 h
    · rintro (rfl | h)
      · exact ⟨_, rfl, ih1 hnd.1⟩
      · obtain ⟨w, hw, hw'⟩ := ih2 h
        have hqp : q ≠ p := fun h' => hnd.1 (h' ▸ h)
        refine ⟨p ^ e p * w, by rw [hw]; ring, ?_⟩
        intro hd
        rcases hq.dvd_or_dvd hd with h | h
        · exact hne _ hqp h
        · exact hw' h

theorem prod_pos' {ps : List ℤ} (hps : ∀ p ∈ ps, 0 < p ∧ Prime p) (e : ℤ → ℕ) :
    0 < (ps.map fun p => p ^ e p).prod := by
  apply List.prod_pos
  intro a ha
  simp only [List.mem_map] at ha
  obtain ⟨p, hp, rfl⟩ := ha
  exact pow_pos (hps p hp).1 _

theorem prod_pow_dvd {ps : List ℤ} (hps : ∀ p ∈ ps, 0 < p ∧ Prime p) (hnd : ps.Nodup) (e : ℤ → ℕ)
    (n : ℕ) {g : ℤ} (h : ∀ p ∈ ps, (p ^ e p) ^ n ∣ g) : ((ps.map fun p => p ^ e p).prod) ^ n ∣ g := by
  induction ps with
  | nil => simp
  | cons p ps ih =>
    rw [List.nodup_cons] at hnd
    have hps' := fun p hp => hps p (List.mem_cons_of_mem _ hp)
    simp only [List.map_cons, List.prod_cons, mul_pow]
    obtain ⟨hp0, hp⟩ := hps p List.mem_cons_self
    refine IsCoprime.mul_dvd ?_ (h p List.mem_cons_self)
      (ih hps' hnd.2 fun q hq => h q (List.mem_cons_of_mem _ hq))
    apply IsCoprime.pow
    apply IsCoprime.pow_left
    rw [Prime.coprime_iff_not_dvd hp]
    exact (prod_split hps' hnd.2 e hp0 hp).1 hnd.1

/-- divisibility in `ℤ` tested on prime powers -/
theorem dvd_of_prime_pow {a b : ℤ} (h : ∀ (p : ℤ) (k : ℕ), 0 < p → Prime p → p ^ k ∣ a → p ^ k ∣ b) :
    a ∣ b := by
  rw [← Int.natAbs_dvd_natAbs]
  rw [Nat.dvd_iff_prime_pow_dvd_dvd]
  intro p k hp hd
  have := h p k (by exact_mod_cast hp.pos) (Nat.prime_iff_prime_int.1 hp) (by
    have : ((p ^ k : ℕ) : ℤ) ∣ a := Int.natCast_dvd.2 hd
    exact_mod_cast this)
  rw [← Int.natCast_dvd]
  exact_mod_cast this

/-- the specification: `u` is the largest scaling, and the scaled pair is valid -/
structure MinScale (c4 c6 u c4' c6' : ℤ) : Prop where
  pos : 0 < u
  e4 : c4 = u ^ 4 * c4'
  e6 : c6 = u ^ 6 * c6'
  valid : Kraus c4' c6'
  max : ∀ v x y : ℤ, c4 = v ^ 4 * x → c6 = v ^ 6 * y → Kraus x y → v ∣ u

theorem kraus_disc {x y : ℤ} (h : Kraus x y) : ∃ D, 1728 * D = x ^ 3 - y ^ 2 ∧ D ≠ 0 := by
  obtain ⟨h0, ⟨D, hD⟩, -⟩ := h
  refine ⟨D, hD.symm, ?_⟩
  rintro rfl
  exact h0 (by rw [hD]; ring)

theorem v12_dvd {c4 c6 D v x y : ℤ} (hD : 1728 * D = c4 ^ 3 - c6 ^ 2) (h4 : c4 = v ^ 4 * x)
    (h6 : c6 = v ^ 6 * y) (hK : Kraus x y) : v ^ 12 ∣ (Int.gcd (c6 * c6) D : ℤ) := by
  obtain ⟨D', hD', -⟩ := kraus_disc hK
  apply Int.dvd_coe_gcd
  · exact ⟨y ^ 2, by rw [h6]; ring⟩
  · refine ⟨D', ?_⟩
    have : (1728 : ℤ) ≠ 0 := by norm_num
    apply mul_left_cancel₀ this
    rw [hD, h4, h6]
    linear_combination (-v ^ 12) * hD'

/-- the loop over the primes computes the largest scaling -/
theorem minU_spec {pdivs : ℤ → List ℤ} (hpd : PdivsOk pdivs) {c4 c6 D : ℤ}
    (hD : 1728 * D = c4 ^ 3 - c6 ^ 2) (hD0 : D ≠ 0) (hK : Kraus c4 c6) :
    ∃ x y, MinScale c4 c6 (minU c4 c6 (Int.gcd (c6 * c6) D) (pdivs (Int.gcd (c6 * c6) D)) 1) x y ∧
      (minU c4 c6 (Int.gcd (c6 * c6) D) (pdivs (Int.gcd (c6 * c6) D)) 1) ^ 12 ∣ D := by
  obtain ⟨g, hg⟩ : ∃ g : ℤ, g = Int.gcd (c6 * c6) D := ⟨_, rfl⟩
  have hg0 : g ≠ 0 := by
    rw [hg]; simp [Int.gcd_eq_zero_iff, hD0]
  obtain ⟨hnd, hmem⟩ := hpd g hg0
  have key := fun p hp hp0 => minExp_spec (p := p) hD hD0 hK hp hp0
  rw [← hg] at key ⊢
  rw [minU_eq, one_mul]
  have hps : ∀ p ∈ pdivs g, 0 < p ∧ Prime p := fun p hp =>
    ⟨((hmem p).1 hp).1, ((hmem p).1 hp).2.1⟩
  obtain ⟨e, he⟩ : ∃ e : ℤ → ℕ, e = fun p => (minExp c4 c6 g p).toNat := ⟨_, rfl⟩
  have he' : ((pdivs g).map fun p => p ^ (minExp c4 c6 g p).toNat) = (pdivs g).map fun p => p ^ e p := by
    rw [he]
  rw [he']
  have hex : ∀ p d, minExp c4 c6 g p = ((d : ℕ) : ℤ) → e p = d := by
    intro p d h; rw [he]; simp only [h, Int.toNat_natCast]
  have h12 : (((pdivs g).map fun p => p ^ e p).prod) ^ 12 ∣ g := by
    apply prod_pow_dvd hps hnd
    intro p hp
    obtain ⟨k, d, h1, h2, h3, h4, h5, -⟩ := key p (hps p hp).2 (hps p hp).1
    rw [hex p k h1]
    have hp0 : 2 ≤ |p| := by
      rw [abs_of_pos (hps p hp).1]
      have := (hps p hp).2.ne_one
      have := (hps p hp).1
      omega
    rw [← pow_mul, prime_le_of_pow_dvd hp0 hg0]
    omega
  have hu6 := dvd_trans h12 (hg ▸ Int.gcd_dvd_left _ _ : g ∣ c6 * c6)
  have huD := dvd_trans h12 (hg ▸ Int.gcd_dvd_right _ _ : g ∣ D)
  obtain ⟨⟨x, hx⟩, ⟨y, hy⟩⟩ := dvd_of_pow12 hD (by rw [pow_two]; exact hu6) huD
  obtain ⟨u, hu⟩ : ∃ u, u = ((pdivs g).map fun p => p ^ e p).prod := ⟨_, rfl⟩
  rw [← hu] at h12 hu6 huD hx hy ⊢
  have hu0 : 0 < u := by rw [hu]; exact prod_pos' hps e
  obtain ⟨-, -, k3, k2⟩ := (kraus_iff c4 c6).1 hK
  have split := fun q hq0 hq => prod_split hps hnd e (q := q) hq0 hq
  rw [← hu] at split
  refine ⟨x, y, ⟨hu0, hx, hy, ?_, ?_⟩, huD⟩
  · rw [kraus_iff]
    obtain ⟨D', hD'⟩ := huD
    have hrel : 1728 * D' = x ^ 3 - y ^ 2 := by
      have : u ^ 12 ≠ 0 := pow_ne_zero _ hu0.ne'
      apply mul_left_cancel₀ this
      rw [hx, hy, hD'] at hD
      linear_combination hD
    refine ⟨?_, ⟨D', hrel.symm⟩, ?_, ?_⟩
    · rw [← hrel]
      have : D' ≠ 0 := by rintro rfl; exact hD0 (by rw [hD']; ring)
      exact mul_ne_zero (by norm_num) this
    · by_cases h3 : (3 : ℤ) ∈ pdivs g
      · obtain ⟨w, hw, hw3⟩ := (split 3 (by norm_num) Int.prime_three).2 h3
        obtain ⟨k, d, h1, h2, -, -, -, -, h3, -⟩ := key 3 Int.prime_three (by norm_num)
        obtain ⟨⟨y', hy', hL⟩, -⟩ := h3 rfl
        rw [hex 3 k h1] at hw
        have : y' = w ^ 6 * y := by
          have : ((3 : ℤ) ^ k) ^ 6 ≠ 0 := by positivity
          apply mul_left_cancel₀ this
          rw [← hy', hy, hw]; ring
        rw [this, Loc3_unit hw3] at hL
        exact hL
      · have hw3 := (split 3 (by norm_num) Int.prime_three).1 h3
        rw [hy, Loc3_unit hw3] at k3
        exact k3
    · by_cases h3 : (2 : ℤ) ∈ pdivs g
      · obtain ⟨w, hw, hw3⟩ := (split 2 (by norm_num) Int.prime_two).2 h3
        obtain ⟨k, d, h1, h2, -, -, -, h3, -⟩ := key 2 Int.prime_two (by norm_num)
        obtain ⟨⟨x', y', hx', hy', hL⟩, -⟩ := h3 rfl
        rw [hex 2 k h1] at hw
        have e6 : y' = w ^ 6 * y := by
          have : ((2 : ℤ) ^ k) ^ 6 ≠ 0 := by positivity
          apply mul_left_cancel₀ this
          rw [← hy', hy, hw]; ring
        have e4 : x' = w ^ 4 * x := by
          have : ((2 : ℤ) ^ k) ^ 4 ≠ 0 := by positivity
          apply mul_left_cancel₀ this
          rw [← hx', hx, hw]; ring
        rw [e6, e4, Loc2_unit hw3] at hL
        exact hL
      · have hw3 := (split 2 (by norm_num) Int.prime_two).1 h3
        rw [hx, hy, Loc2_unit hw3] at k2
        exact k2
  · intro v x' y' hx' hy' hK'
    have hv12 := v12_dvd hD hx' hy' hK'
    rw [← hg] at hv12
    obtain ⟨-, -, l3, l2⟩ := (kraus_iff x' y').1 hK'
    have hv0 : v ≠ 0 := by
      rintro rfl
      rw [zero_pow (by norm_num), zero_dvd_iff] at hv12
      exact hg0 hv12
    apply dvd_of_prime_pow
    intro p k hp0 hp hd
    rcases Nat.eq_zero_or_pos k with rfl | hk
    · simp
    have hp2 : 2 ≤ |p| := by
      rw [abs_of_pos hp0]
      have := hp.ne_one
      omega
    have hkd : ∀ j, p ^ j ∣ v → j ≤ val p g / 12 := by
      intro j hj
      have : p ^ (j * 12) ∣ g := by
        rw [pow_mul]; exact dvd_trans (pow_dvd_pow_of_dvd hj 12) hv12
      rw [prime_le_of_pow_dvd hp2 hg0] at this
      omega
    have hpg : p ∈ pdivs g := by
      rw [hmem]
      refine ⟨hp0, hp, ?_⟩
      exact dvd_trans (dvd_trans (dvd_pow_self p hk.ne') hd) (dvd_trans (dvd_pow_self v (by norm_num)) hv12)
    obtain ⟨w, hw, -⟩ := (split p hp0 hp).2 hpg
    obtain ⟨j, d, h1, h2, h3, -, -, t2, t3, t5⟩ := key p hp hp0
    rw [hex p j h1] at hw
    suffices hkj : k ≤ j by
      rw [hw]; exact Dvd.dvd.mul_right (pow_dvd_pow p hkj) w
    have hkd' := hkd k hd
    by_contra hlt
    have hjd : j < d := by omega
    -- the exact power of p in v is then d
    have hsplit : j + 1 = d → ∃ z, v = p ^ d * z ∧ ¬ p ∣ z := by
      intro hj
      have hkd2 : k = d := by omega
      subst hkd2
      obtain ⟨z, hz⟩ := hd
      refine ⟨z, hz, ?_⟩
      rintro ⟨z', rfl⟩
      have := hkd (k + 1) ⟨z', by rw [hz]; ring⟩
      omega
    by_cases p2 : p = 2
    · subst p2
      obtain ⟨hj, hno⟩ := (t2 rfl).2 hjd
      obtain ⟨z, hz, hz2⟩ := hsplit hj
      apply hno (z ^ 4 * x') (z ^ 6 * y')
      · rw [hx', hz]; ring
      · rw [hy', hz]; ring
      · rw [Loc2_unit hz2]; exact l2
    · by_cases p3 : p = 3
      · subst p3
        obtain ⟨hj, hno⟩ := (t3 rfl).2 hjd
        obtain ⟨z, hz, hz2⟩ := hsplit hj
        apply hno (z ^ 6 * y')
        · rw [hy', hz]; ring
        · rw [Loc3_unit hz2]; exact l3
      · have := t5 p2 p3
        omega

/-- all of `minimise_c4c6` -/
theorem minimise_spec {pdivs : ℤ → List ℤ} (hpd : PdivsOk pdivs) {c4 c6 : ℤ} (hK : Kraus c4 c6) :
    ∃ u c4' c6' D', minimiseC4C6 pdivs c4 c6 = (c4', c6', D', u) ∧ MinScale c4 c6 u c4' c6' ∧
      1728 * D' = c4' ^ 3 - c6' ^ 2 := by
  obtain ⟨D, hD, hD0⟩ := kraus_disc hK
  have hfd : (c4 * c4 * c4 - c6 * c6).fdiv 1728 = D := fdiv_eq (by norm_num) (by rw [hD]; ring)
  have hone : ∀ v x y : ℤ, c4 = v ^ 4 * x → c6 = v ^ 6 * y → Kraus x y →
      v ^ 12 ∣ (Int.gcd (c6 * c6) D : ℤ) := fun v x y h4 h6 hk => v12_dvd hD h4 h6 hk
  unfold minimiseC4C6
  simp only [hfd]
  by_cases g1 : (Int.gcd c4 c6 : ℤ) = 1
  · rw [if_pos g1]
    refine ⟨1, c4, c6, D, rfl, ⟨by norm_num, by ring, by ring, hK, ?_⟩, hD⟩
    intro v x y h4 h6 _
    rw [← g1]
    apply Int.dvd_coe_gcd
    · exact ⟨v ^ 3 * x, by rw [h4]; ring⟩
    · exact ⟨v ^ 5 * y, by rw [h6]; ring⟩
  rw [if_neg g1]
  by_cases g2 : (Int.gcd (c6 * c6) D : ℤ) = 1
  · rw [if_pos g2]
    refine ⟨1, c4, c6, D, rfl, ⟨by norm_num, by ring, by ring, hK, ?_⟩, hD⟩
    intro v x y h4 h6 hk
    rw [← g2]
    exact dvd_trans (dvd_pow_self v (by norm_num)) (hone v x y h4 h6 hk)
  rw [if_neg g2]
  obtain ⟨x, y, hM, hu12⟩ := minU_spec hpd hD hD0 hK
  obtain ⟨u, hu⟩ : ∃ u, u = minU c4 c6 (Int.gcd (c6 * c6) D) (pdivs (Int.gcd (c6 * c6) D)) 1 :=
    ⟨_, rfl⟩
  rw [← hu] at hM hu12 ⊢
  by_cases h1 : u = 1
  · rw [if_pos h1]
    refine ⟨u, c4, c6, D, rfl, ?_, hD⟩
    have h4 := hM.e4
    have h6 := hM.e6
    rw [h1] at h4 h6
    rw [one_pow, one_mul] at h4 h6
    rw [← h4, ← h6] at hM
    exact hM
  · rw [if_neg h1]
    obtain ⟨D', hD'⟩ := hu12
    have hu0 := hM.pos.ne'
    have f4 : c4.fdiv (u * u * (u * u)) = x :=
      fdiv_eq (by positivity) (by rw [hM.e4]; ring)
    have f6 : c6.fdiv (u * u * (u * u * (u * u))) = y :=
      fdiv_eq (by positivity) (by rw [hM.e6]; ring)
    have f12 : D.fdiv (u * u * (u * u * (u * u)) * (u * u * (u * u * (u * u)))) = D' :=
      fdiv_eq (by positivity) (by rw [hD']; ring)
    rw [f4, f6, f12]
    refine ⟨u, x, y, D', rfl, hM, ?_⟩
    have : u ^ 12 ≠ 0 := pow_ne_zero _ hu0
    apply mul_left_cancel₀ this
    have h4 := hM.e4
    have h6 := hM.e6
    rw [hD'] at hD
    linear_combination hD + (c4 ^ 2 + c4 * (u ^ 4 * x) + (u ^ 4 * x) ^ 2) * h4 - (c6 + u ^ 6 * y) * h6

namespace Props

open WeierstrassCurve

theorem kraus_iff_curve (c4 c6 : ℤ) : Kraus c4 c6 ↔
    ∃ W : WeierstrassCurve ℤ, W.Δ ≠ 0 ∧ W.c₄ = c4 ∧ W.c₆ = c6 := by
  rw [← validInvariants_iff, C28_valid_invariants]

/-- C30: `minimise_c4c6` on the invariants of an integral equation returns `u > 0` and the
invariants of an integral equation with `c4 = u⁴ c4'`, `c6 = u⁶ c6'`, `Δ = u¹² Δ'`, and `u` is a
multiple of every scaling that leads to an integral equation. -/
theorem C30_minimise (pdivs : ℤ → List ℤ) (hpd : PdivsOk pdivs) (W : WeierstrassCurve ℤ)
    (hW : W.Δ ≠ 0) :
    ∃ (u : ℤ) (W' : WeierstrassCurve ℤ), minimiseC4C6 pdivs W.c₄ W.c₆ = (W'.c₄, W'.c₆, W'.Δ, u) ∧
      0 < u ∧ W.c₄ = u ^ 4 * W'.c₄ ∧ W.c₆ = u ^ 6 * W'.c₆ ∧ W.Δ = u ^ 12 * W'.Δ ∧
      ∀ (v : ℤ) (W'' : WeierstrassCurve ℤ), W.c₄ = v ^ 4 * W''.c₄ → W.c₆ = v ^ 6 * W''.c₆ →
        v ∣ u ∧ W'.Δ ∣ W''.Δ := by
  obtain ⟨u, c4', c6', D', h1, hM, hD'⟩ := minimise_spec hpd ((kraus_iff_curve _ _).2 ⟨W, hW, rfl, rfl⟩)
  obtain ⟨W', hW', h4, h6⟩ := (kraus_iff_curve _ _).1 hM.valid
  have e1728 : (1728 : ℤ) ≠ 0 := by norm_num
  have hDD : D' = W'.Δ := by
    apply mul_left_cancel₀ e1728
    rw [hD', c_relation, h4, h6]
  have e4 := hM.e4
  have e6 := hM.e6
  rw [← h4] at e4
  rw [← h6] at e6
  have eD : W.Δ = u ^ 12 * W'.Δ := by
    apply mul_left_cancel₀ e1728
    rw [c_relation, e4, e6]
    linear_combination (-u ^ 12) * W'.c_relation
  refine ⟨u, W', by rw [h1, h4, h6, hDD], hM.pos, e4, e6, eD, ?_⟩
  intro v W'' hv4 hv6
  have evD : W.Δ = v ^ 12 * W''.Δ := by
    apply mul_left_cancel₀ e1728
    rw [c_relation, hv4, hv6]
    linear_combination (-v ^ 12) * W''.c_relation
  have h'' : W''.Δ ≠ 0 := by
    intro h0; rw [h0, mul_zero] at evD; exact hW evD
  have hd := hM.max v _ _ hv4 hv6 ((kraus_iff_curve _ _).2 ⟨W'', h'', rfl, rfl⟩)
  refine ⟨hd, ?_⟩
  obtain ⟨k, hk⟩ := hd
  have hv : v ^ 12 ≠ 0 := by
    intro h0; rw [h0, zero_mul] at evD; exact hW evD
  refine ⟨k ^ 12, ?_⟩
  apply mul_left_cancel₀ hv
  rw [← evD, eD, hk]; ring

/-- a function meeting the contract of `pdivs` -/
def pdivs0 (n : ℤ) : List ℤ := (n.natAbs.primeFactorsList.dedup).map (fun p : ℕ => (p : ℤ))

example : PdivsOk pdivs0 := by
  intro n hn
  constructor
  · exact (List.nodup_dedup _).map (fun a b h => by exact_mod_cast h)
  · intro p
    simp only [pdivs0, List.mem_map, List.mem_dedup]
    constructor
    · rintro ⟨q, hq, rfl⟩
      rw [Nat.mem_primeFactorsList (by omega)] at hq
      exact ⟨by exact_mod_cast hq.1.pos, Nat.prime_iff_prime_int.1 hq.1, Int.natCast_dvd.2 hq.2⟩
    · rintro ⟨h0, hp, hd⟩
      refine ⟨p.natAbs, ?_, by omega⟩
      rw [Nat.mem_primeFactorsList (by omega)]
      exact ⟨Int.prime_iff_natAbs_prime.1 hp, Int.natAbs_dvd_natAbs.2 hd⟩

/-- the invariants of 11a1 scaled by 6 -/
example : minimiseC4C6 (fun _ => [2, 3]) (6 ^ 4 * 496) (6 ^ 6 * 20008) =
    (496, 20008, -161051, 6) := by decide +kernel

/-- C30: the model is globally minimal.  For every integral equation `W''` isomorphic to `W` over
the rationals (by a change of variables with rational `u, r, s, t`), the discriminant of the new
equation divides that of `W''`. -/
theorem C30_global (pdivs : ℤ → List ℤ) (hpd : PdivsOk pdivs) (W W'' : WeierstrassCurve ℤ)
    (hW : W.Δ ≠ 0) (C : VariableChange ℚ)
    (hiso : C • W.map (Int.castRingHom ℚ) = W''.map (Int.castRingHom ℚ)) :
    (minimiseC4C6 pdivs W.c₄ W.c₆).2.2.1 ∣ W''.Δ := by
  obtain ⟨u, W', h1, hu, e4, e6, eD, hmax⟩ := C30_minimise pdivs hpd W hW
  rw [h1]
  change W'.Δ ∣ W''.Δ
  -- the scaling as a fraction n/d
  have q4 : (W.c₄ : ℚ) = (C.u : ℚ) ^ 4 * W''.c₄ := by
    have := congrArg WeierstrassCurve.c₄ hiso
    rw [variableChange_c₄, map_c₄, map_c₄] at this
    simp only [eq_intCast] at this
    rw [← this, ← mul_assoc, ← mul_pow]; simp
  have q6 : (W.c₆ : ℚ) = (C.u : ℚ) ^ 6 * W''.c₆ := by
    have := congrArg WeierstrassCurve.c₆ hiso
    rw [variableChange_c₆, map_c₆, map_c₆] at this
    simp only [eq_intCast] at this
    rw [← this, ← mul_assoc, ← mul_pow]; simp
  obtain ⟨q, hq⟩ : ∃ q : ℚ, q = (C.u : ℚ) := ⟨_, rfl⟩
  rw [← hq] at q4 q6
  have hd0 : (q.den : ℤ) ≠ 0 := by exact_mod_cast q.den_nz
  have hqd : q * (q.den : ℚ) = q.num := Rat.mul_den_eq_num q
  have z4 : (q.den : ℤ) ^ 4 * W.c₄ = q.num ^ 4 * W''.c₄ := by
    have : ((q.den : ℤ) ^ 4 * W.c₄ : ℚ) = q.num ^ 4 * W''.c₄ := by
      rw [q4, ← hqd]; push_cast; ring
    exact_mod_cast this
  have z6 : (q.den : ℤ) ^ 6 * W.c₆ = q.num ^ 6 * W''.c₆ := by
    have : ((q.den : ℤ) ^ 6 * W.c₆ : ℚ) = q.num ^ 6 * W''.c₆ := by
      rw [q6, ← hqd]; push_cast; ring
    exact_mod_cast this
  have hcop : IsCoprime q.num (q.den : ℤ) := by
    rw [Int.isCoprime_iff_nat_coprime]; exact q.reduced
  generalize hn : q.num = n at *
  generalize hdd : (q.den : ℤ) = d at *
  -- n⁴ ∣ c4, n⁶ ∣ c6
  obtain ⟨x, hx⟩ : n ^ 4 ∣ W.c₄ := by
    have : n ^ 4 ∣ d ^ 4 * W.c₄ := by rw [z4]; exact Dvd.intro _ rfl
    exact (hcop.pow).dvd_of_dvd_mul_left this
  obtain ⟨y, hy⟩ : n ^ 6 ∣ W.c₆ := by
    have : n ^ 6 ∣ d ^ 6 * W.c₆ := by rw [z6]; exact Dvd.intro _ rfl
    exact (hcop.pow).dvd_of_dvd_mul_left this
  have hn0 : n ≠ 0 := by
    rintro rfl
    apply hW
    have : (1728 : ℤ) ≠ 0 := by norm_num
    apply mul_left_cancel₀ this
    rw [c_relation, hx, hy]; ring
  have x4 : W''.c₄ = d ^ 4 * x := by
    apply mul_left_cancel₀ (pow_ne_zero 4 hn0)
    rw [← z4, hx]; ring
  have y6 : W''.c₆ = d ^ 6 * y := by
    apply mul_left_cancel₀ (pow_ne_zero 6 hn0)
    rw [← z6, hy]; ring
  have h1728 : (1728 : ℤ) ≠ 0 := by norm_num
  have zD : d ^ 12 * W.Δ = n ^ 12 * W''.Δ := by
    apply mul_left_cancel₀ h1728
    have a := W.c_relation
    have b := W''.c_relation
    rw [hx, hy] at a
    rw [x4, y6] at b
    linear_combination d ^ 12 * a - n ^ 12 * b
  obtain ⟨D, hD⟩ : n ^ 12 ∣ W.Δ := by
    have : n ^ 12 ∣ d ^ 12 * W.Δ := by rw [zD]; exact Dvd.intro _ rfl
    exact (hcop.pow).dvd_of_dvd_mul_left this
  have hD'' : W''.Δ = d ^ 12 * D := by
    apply mul_left_cancel₀ (pow_ne_zero 12 hn0)
    rw [← zD, hD]; ring
  have hrel : 1728 * D = x ^ 3 - y ^ 2 := by
    apply mul_left_cancel₀ (pow_ne_zero 12 hn0)
    have a := W.c_relation
    rw [hx, hy, hD] at a
    linear_combination a
  have hDne : D ≠ 0 := by
    rintro rfl; apply hW; rw [hD]; ring
  have hW''0 : W''.Δ ≠ 0 := by
    rw [hD'']; exact mul_ne_zero (pow_ne_zero _ hd0) hDne
  obtain ⟨-, -, k3, k2⟩ := (kraus_iff _ _).1 ((kraus_iff_curve _ _).2 ⟨W, hW, rfl, rfl⟩)
  obtain ⟨-, -, l3, l2⟩ := (kraus_iff _ _).1 ((kraus_iff_curve _ _).2 ⟨W'', hW''0, rfl, rfl⟩)
  have hor : ∀ p : ℤ, Prime p → ¬ p ∣ n ∨ ¬ p ∣ d := by
    intro p hp
    by_contra hh
    rw [not_or, not_not, not_not] at hh
    exact hp.not_isUnit (hcop.isUnit_of_dvd' hh.1 hh.2)
  have hKx : Kraus x y := by
    rw [kraus_iff]
    refine ⟨?_, ⟨D, hrel.symm⟩, ?_, ?_⟩
    · rw [← hrel]; exact mul_ne_zero h1728 hDne
    · rcases hor 3 Int.prime_three with h | h
      · rw [hy, Loc3_unit h] at k3; exact k3
      · rw [y6, Loc3_unit h] at l3; exact l3
    · rcases hor 2 Int.prime_two with h | h
      · rw [hx, hy, Loc2_unit h] at k2; exact k2
      · rw [x4, y6, Loc2_unit h] at l2; exact l2
  obtain ⟨V, hV0, hV4, hV6⟩ := (kraus_iff_curve _ _).1 hKx
  obtain ⟨-, hdiv⟩ := hmax n V (by rw [hV4]; exact hx) (by rw [hV6]; exact hy)
  have hVD : V.Δ = D := by
    apply mul_left_cancel₀ h1728
    rw [c_relation, hV4, hV6, hrel]
  rw [hVD] at hdiv
  rw [hD'']
  exact Dvd.dvd.mul_left hdiv _

/-- a rational number that is a root of integer polynomials with leading coefficients 3 and 4 is an
integer -/
theorem int_of_roots {r : ℚ} {A B C D E F G : ℤ}
    (h3 : 3 * r ^ 4 + A * r ^ 3 + B * r ^ 2 + C * r + D = 0)
    (h4 : 4 * r ^ 3 + E * r ^ 2 + F * r + G = 0) : ∃ n : ℤ, r = n := by
  have hqd : r * (r.den : ℚ) = r.num := Rat.mul_den_eq_num r
  have hcop : IsCoprime (r.den : ℤ) r.num := by
    rw [isCoprime_comm, Int.isCoprime_iff_nat_coprime]; exact r.reduced
  have hden : (r.den : ℚ) ≠ 0 := by exact_mod_cast r.den_nz
  have hr : r = r.num / r.den := by rw [← hqd]; field_simp
  generalize hn : r.num = n at *
  generalize hd : r.den = d at *
  have i3 : 3 * n ^ 4 + d * (A * n ^ 3 + B * n ^ 2 * d + C * n * d ^ 2 + D * d ^ 3) = 0 := by
    have : (3 * n ^ 4 + d * (A * n ^ 3 + B * n ^ 2 * d + C * n * d ^ 2 + D * d ^ 3) : ℚ) = 0 := by
      rw [← hqd]; linear_combination (d : ℚ) ^ 4 * h3
    exact_mod_cast this
  have i4 : 4 * n ^ 3 + d * (E * n ^ 2 + F * n * d + G * d ^ 2) = 0 := by
    have : (4 * n ^ 3 + d * (E * n ^ 2 + F * n * d + G * d ^ 2) : ℚ) = 0 := by
      rw [← hqd]; linear_combination (d : ℚ) ^ 3 * h4
    exact_mod_cast this
  have d3 : (d : ℤ) ∣ 3 := by
    apply (hcop.pow_right (n := 4)).dvd_of_dvd_mul_right
    exact ⟨-(A * n ^ 3 + B * n ^ 2 * d + C * n * d ^ 2 + D * d ^ 3), by linear_combination i3⟩
  have d4 : (d : ℤ) ∣ 4 := by
    apply (hcop.pow_right (n := 3)).dvd_of_dvd_mul_right
    exact ⟨-(E * n ^ 2 + F * n * d + G * d ^ 2), by linear_combination i4⟩
  have d1 : (d : ℤ) ∣ 1 := by
    have := dvd_sub d4 d3
    norm_num at this ⊢
    exact this
  have : d = 1 := by
    have := Int.eq_one_of_dvd_one (by positivity) d1
    exact_mod_cast this
  exact ⟨n, by rw [hr, this]; simp⟩

/-- two integral equations whose invariants differ by the scaling `u` are related by an integral
change of variables -/
theorem int_change (W W' : WeierstrassCurve ℤ) (u : ℤ) (h4 : W.c₄ = u ^ 4 * W'.c₄)
    (h6 : W.c₆ = u ^ 6 * W'.c₆) :
    ∃ r s t : ℤ, u * W'.a₁ - W.a₁ = 2 * s ∧
      u ^ 2 * W'.a₂ - W.a₂ + s * W.a₁ + s ^ 2 = 3 * r ∧
      u ^ 3 * W'.a₃ - W.a₃ - r * W.a₁ = 2 * t ∧
      u ^ 4 * W'.a₄ = W.a₄ - s * W.a₃ + 2 * r * W.a₂ - (t + r * s) * W.a₁ + 3 * r ^ 2 - 2 * s * t ∧
      u ^ 6 * W'.a₆ = W.a₆ + r * W.a₄ + r ^ 2 * W.a₂ + r ^ 3 - t * W.a₃ - t ^ 2 - r * t * W.a₁ := by
  obtain ⟨a1, a2, a3, a4, a6⟩ := W
  obtain ⟨e1, e2, e3, e4, e6⟩ := W'
  simp only [c₄, c₆, b₂, b₄, b₆] at *
  -- the b-invariants
  obtain ⟨b2, hb2⟩ : ∃ b2, b2 = a1 ^ 2 + 4 * a2 := ⟨_, rfl⟩
  obtain ⟨b4, hb4⟩ : ∃ b4, b4 = 2 * a4 + a1 * a3 := ⟨_, rfl⟩
  obtain ⟨b6, hb6⟩ : ∃ b6, b6 = a3 ^ 2 + 4 * a6 := ⟨_, rfl⟩
  obtain ⟨b8, hb8⟩ : ∃ b8, 4 * b8 = b2 * b6 - b4 ^ 2 :=
    ⟨a1 ^ 2 * a6 + 4 * a2 * a6 - a1 * a3 * a4 + a2 * a3 ^ 2 - a4 ^ 2, by
      rw [hb2, hb4, hb6]; ring⟩
  obtain ⟨B2, hB2⟩ : ∃ b2, b2 = e1 ^ 2 + 4 * e2 := ⟨_, rfl⟩
  obtain ⟨B4, hB4⟩ : ∃ b4, b4 = 2 * e4 + e1 * e3 := ⟨_, rfl⟩
  obtain ⟨B6, hB6⟩ : ∃ b6, b6 = e3 ^ 2 + 4 * e6 := ⟨_, rfl⟩
  obtain ⟨B8, hB8⟩ : ∃ b8, 4 * b8 = B2 * B6 - B4 ^ 2 :=
    ⟨e1 ^ 2 * e6 + 4 * e2 * e6 - e1 * e3 * e4 + e2 * e3 ^ 2 - e4 ^ 2, by
      rw [hB2, hB4, hB6]; ring⟩
  rw [← hb2, ← hb4, ← hB2, ← hB4] at h4
  rw [← hb2, ← hb4, ← hb6, ← hB2, ← hB4, ← hB6] at h6
  have q4 : (b2 : ℚ) ^ 2 - 24 * b4 = u ^ 4 * (B2 ^ 2 - 24 * B4) := by exact_mod_cast h4
  have q6 : -(b2 : ℚ) ^ 3 + 36 * b2 * b4 - 216 * b6 =
      u ^ 6 * (-B2 ^ 3 + 36 * B2 * B4 - 216 * B6) := by exact_mod_cast h6
  have q8 : 4 * (b8 : ℚ) = b2 * b6 - b4 ^ 2 := by exact_mod_cast hb8
  have Q8 : 4 * (B8 : ℚ) = B2 * B6 - B4 ^ 2 := by exact_mod_cast hB8
  obtain ⟨R, hR⟩ : ∃ R : ℚ, u ^ 2 * B2 = b2 + 12 * R := ⟨(u ^ 2 * B2 - b2) / 12, by ring⟩
  have R4 : (u : ℚ) ^ 4 * B4 = b4 + R * b2 + 6 * R ^ 2 := by
    linear_combination (1 / 24 : ℚ) * q4 + (1 / 24 : ℚ) * (u ^ 2 * B2 + b2 + 12 * R) * hR
  have R6 : (u : ℚ) ^ 6 * B6 = b6 + 2 * R * b4 + R ^ 2 * b2 + 4 * R ^ 3 := by
    linear_combination (1 / 216 : ℚ) * q6 + (36 / 216 : ℚ) * (u ^ 2 * B2) * R4 +
      (36 / 216 : ℚ) * (b4 + R * b2 + 6 * R ^ 2) * hR
      - (1 / 216 : ℚ) * ((u ^ 2 * B2) ^ 2 + (u ^ 2 * B2) * (b2 + 12 * R) + (b2 + 12 * R) ^ 2) * hR
  have R8 : (u : ℚ) ^ 8 * B8 = b8 + 3 * R * b6 + 3 * R ^ 2 * b4 + R ^ 3 * b2 + 3 * R ^ 4 := by
    linear_combination (u ^ 8 / 4 : ℚ) * Q8 - (1 / 4 : ℚ) * q8 + (1 / 4 : ℚ) * (u ^ 2 * B2) * R6 +
      (1 / 4 : ℚ) * (b6 + 2 * R * b4 + R ^ 2 * b2 + 4 * R ^ 3) * hR
      - (1 / 4 : ℚ) * (u ^ 4 * B4 + b4 + R * b2 + 6 * R ^ 2) * R4
  obtain ⟨r, rfl⟩ := int_of_roots (r := R) (A := b2) (B := 3 * b4) (C := 3 * b6)
    (D := b8 - u ^ 8 * B8) (E := b2) (F := 2 * b4) (G := b6 - u ^ 6 * B6)
    (by push_cast; linear_combination -R8) (by push_cast; linear_combination -R6)
  have Z2 : u ^ 2 * B2 = b2 + 12 * r := by exact_mod_cast hR
  have Z4 : u ^ 4 * B4 = b4 + r * b2 + 6 * r ^ 2 := by exact_mod_cast R4
  have Z6 : u ^ 6 * B6 = b6 + 2 * r * b4 + r ^ 2 * b2 + 4 * r ^ 3 := by exact_mod_cast R6
  have even : ∀ m c k : ℤ, m ^ 2 + 2 * c * m = 4 * k → ∃ s, m = 2 * s := by
    intro m c k h
    rcases Int.even_or_odd' m with ⟨l, hl | hl⟩
    · exact ⟨l, hl⟩
    · exfalso
      have : 2 * (2 * k - 2 * l ^ 2 - 2 * l - c * (2 * l + 1)) = 1 := by
        rw [hl] at h; linear_combination (-1 : ℤ) * h
      omega
  rw [hB2, hb2] at Z2
  rw [hB4, hb4, hb2] at Z4
  rw [hB6, hb6, hb4, hb2] at Z6
  obtain ⟨s, hs⟩ := even (u * e1 - a1) a1 (3 * r - u ^ 2 * e2 + a2) (by linear_combination Z2)
  obtain ⟨t, ht⟩ := even (u ^ 3 * e3 - a3 - r * a1) (a3 + r * a1)
    (a6 + r * a4 + r ^ 2 * a2 + r ^ 3 - u ^ 6 * e6) (by linear_combination Z6)
  have k1 : u * e1 = a1 + 2 * s := by linarith
  have k3 : u ^ 3 * e3 = a3 + r * a1 + 2 * t := by linarith
  have four : (4 : ℤ) ≠ 0 := by norm_num
  have two : (2 : ℤ) ≠ 0 := by norm_num
  refine ⟨r, s, t, hs, ?_, ht, ?_, ?_⟩
  · apply mul_left_cancel₀ four
    linear_combination Z2 - (u * e1 + a1 + 2 * s) * k1
  · apply mul_left_cancel₀ two
    linear_combination Z4 - (u * e1) * k3 - (a3 + r * a1 + 2 * t) * k1
  · apply mul_left_cancel₀ four
    linear_combination Z6 - (u ^ 3 * e3 + a3 + r * a1 + 2 * t) * k3

/-- C30: `minimalize(u,r,s,t)` returns the global minimal model and integers `u, r, s, t` (all the
divisions are exact) which transform the curve into it. -/
theorem C30_minimalize (pdivs : ℤ → List ℤ) (hpd : PdivsOk pdivs) (E : Cv) (hE : E.W.Δ ≠ 0) :
    ∃ (E' : Cv) (u r s t : ℤ), minimalize pdivs (Cd.ofAi E) = (Cd.ofAi E', u, r, s, t) ∧
      E'.W.Δ ≠ 0 ∧ 0 < u ∧
      u * E'.a1 = E.a1 + 2 * s ∧
      u ^ 2 * E'.a2 = E.a2 - s * E.a1 + 3 * r - s ^ 2 ∧
      u ^ 3 * E'.a3 = E.a3 + r * E.a1 + 2 * t ∧
      u ^ 4 * E'.a4 = E.a4 - s * E.a3 + 2 * r * E.a2 - (t + r * s) * E.a1 + 3 * r ^ 2 - 2 * s * t ∧
      u ^ 6 * E'.a6 = E.a6 + r * E.a4 + r ^ 2 * E.a2 + r ^ 3 - t * E.a3 - t ^ 2 - r * t * E.a1 ∧
      ∀ (W'' : WeierstrassCurve ℤ) (C : VariableChange ℚ),
        C • E.W.map (Int.castRingHom ℚ) = W''.map (Int.castRingHom ℚ) → E'.W.Δ ∣ W''.Δ := by
  have hglob := fun W'' C h => C30_global pdivs hpd E.W W'' hE C h
  obtain ⟨u, W', h1, hu, e4, e6, eD, -⟩ := C30_minimise pdivs hpd E.W hE
  have hW'0 : W'.Δ ≠ 0 := by
    intro h; apply hE; rw [eD, h, mul_zero]
  have hval : validInvariants W'.c₄ W'.c₆ = true :=
    (C28_valid_invariants _ _).2 ⟨W', hW'0, rfl, rfl⟩
  obtain ⟨E', hE', hE'0, h4, h6⟩ := C29_constructor _ _ hval
  have hΔ : E'.W.Δ = W'.Δ := by
    have : (1728 : ℤ) ≠ 0 := by norm_num
    apply mul_left_cancel₀ this
    rw [c_relation, c_relation, h4, h6]
  obtain ⟨hc, hstd⟩ := Cd.ofAi_std hE
  obtain ⟨hc', -⟩ := Cd.ofAi_std hE'0
  obtain ⟨r, s, t, k1, k2, k3, k4, k6⟩ := int_change E.W E'.W u (by rw [e4, h4]) (by rw [e6, h6])
  simp only [Cv.W] at k1 k2 k3 k4 k6
  refine ⟨E', u, r, s, t, ?_, hE'0, hu, by linarith, by linarith, by linarith, k4, k6, ?_⟩
  · unfold minimalize
    have c1 := congrArg Cv.a1 hc
    have c2 := congrArg Cv.a2 hc
    have c3 := congrArg Cv.a3 hc
    have d1 := congrArg Cv.a1 hc'
    have d2 := congrArg Cv.a2 hc'
    have d3 := congrArg Cv.a3 hc'
    have g4 : (Cd.ofAi E).c4 = E.W.c₄ := by rw [hstd.c4, hc]
    have g6 : (Cd.ofAi E).c6 = E.W.c₆ := by rw [hstd.c6, hc]
    rw [g4, g6, h1]
    simp only [hE', c1, c2, c3, d1, d2, d3]
    have f1 : (u * E'.a1 - E.a1).fdiv 2 = s := fdiv_eq two_ne_zero k1
    rw [f1]
    have f2 : (u * u * E'.a2 - E.a2 + s * E.a1 + s * s).fdiv 3 = r :=
      fdiv_eq three_ne_zero (by rw [← k2]; ring)
    rw [f2]
    have f3 : (u * u * u * E'.a3 - E.a3 - r * E.a1).fdiv 2 = t :=
      fdiv_eq two_ne_zero (by rw [← k3]; ring)
    rw [f3]
  · intro W'' C h
    have := hglob W'' C h
    rw [h1] at this
    rw [hΔ]
    exact this

/-- a non-minimal model of 11a1 -/
example : minimalize (fun _ => [2, 3]) (Cd.ofAi ⟨0, -4, 8, -160, -1280⟩) =
    (Cd.ofAi ⟨0, -1, 1, -10, -20⟩, 2, 0, 0, 0) := by decide +kernel

end Props

end Eclib.Curve
