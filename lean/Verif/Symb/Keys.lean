import Verif.Symb.Tables

/-!
# Equivalence of M-symbols and the keys of `symb::normalize`
-/

namespace Eclib.Symb

namespace SymbSpec

/-- `(c, d)` generates the unit ideal modulo `N` -/
def Unimod (N c d : ℤ) : Prop := ∃ a b k : ℤ, a * c + b * d + k * N = 1

/-- `(c : d)` and `(c' : d')` are the same point of the projective line over `ℤ/N` -/
def Equiv (N c d c' d' : ℤ) : Prop := ∃ u : ℤ, IsCoprime u N ∧ N ∣ c' - u * c ∧ N ∣ d' - u * d

end SymbSpec

open SymbSpec

theorem Equiv.refl (N c d : ℤ) : Equiv N c d c d :=
  ⟨1, isCoprime_one_left, by simp, by simp⟩

theorem Equiv.symm {N c d c' d' : ℤ} (h : Equiv N c d c' d') : Equiv N c' d' c d := by
  obtain ⟨u, ⟨a, b, hab⟩, ⟨x, hx⟩, ⟨y, hy⟩⟩ := h
  refine ⟨a, ⟨u, b, by linear_combination hab⟩, ⟨b * c - a * x, ?_⟩, ⟨b * d - a * y, ?_⟩⟩
  · linear_combination -a * hx - c * hab
  · linear_combination -a * hy - d * hab

theorem Equiv.trans {N c d c' d' c'' d'' : ℤ} (h : Equiv N c d c' d') (h' : Equiv N c' d' c'' d'') :
    Equiv N c d c'' d'' := by
  obtain ⟨u, hu, ⟨x, hx⟩, ⟨y, hy⟩⟩ := h
  obtain ⟨v, hv, ⟨x', hx'⟩, ⟨y', hy'⟩⟩ := h'
  exact ⟨v * u, hv.mul_left hu, ⟨x' + v * x, by linear_combination hx' + v * hx⟩,
    ⟨y' + v * y, by linear_combination hy' + v * hy⟩⟩

theorem Unimod.of_equiv {N c d c' d' : ℤ} (h : Equiv N c d c' d') (hu : Unimod N c d) :
    Unimod N c' d' := by
  obtain ⟨u, _, ⟨x, hx⟩, ⟨y, hy⟩⟩ := Equiv.symm h
  obtain ⟨a, b, k, e⟩ := hu
  exact ⟨a * u, b * u, a * x + b * y + k, by linear_combination e - a * hx - b * hy⟩

theorem gcd_eq_of_dvd_sub {N c c' u : ℤ} (hu : IsCoprime u N) (h : N ∣ c' - u * c) :
    Int.gcd c' N = Int.gcd c N := by
  obtain ⟨x, hx⟩ := h
  obtain ⟨a, b, hab⟩ := hu
  apply Nat.dvd_antisymm
  · rw [← Int.natCast_dvd_natCast]
    apply Int.dvd_coe_gcd
    · obtain ⟨s, hs⟩ := Int.gcd_dvd_left c' N
      obtain ⟨t, ht⟩ := Int.gcd_dvd_right c' N
      refine ⟨a * s + (b * c - a * x) * t, ?_⟩
      linear_combination a * hs + (b * c - a * x) * ht - a * hx - c * hab
    · exact Int.gcd_dvd_right _ _
  · rw [← Int.natCast_dvd_natCast]
    apply Int.dvd_coe_gcd
    · obtain ⟨s, hs⟩ := Int.gcd_dvd_left c N
      obtain ⟨t, ht⟩ := Int.gcd_dvd_right c N
      exact ⟨u * s + x * t, by linear_combination u * hs + x * ht + hx⟩
    · exact Int.gcd_dvd_right _ _

/-- a key for the symbol `(c : d)`: what `normalize` computes -/
def Key (N c d : ℤ) (k : ℤ × ℤ) : Prop :=
  ∃ u, IsCoprime u N ∧ N ∣ u * c - Int.gcd c N ∧ k = ((Int.gcd c N : ℤ), (u * d) % (N / Int.gcd c N))

/-- `gcd (c / g) (N / g) = 1` in the form needed -/
theorem dvd_of_dvd_mul_gcd {N c x : ℤ} (hN : 0 < N) (h : N ∣ x * c) : N / Int.gcd c N ∣ x := by
  have hg : 0 < (Int.gcd c N : ℤ) := by exact_mod_cast Int.gcd_pos_of_ne_zero_right _ hN.ne'
  obtain ⟨t, ht⟩ := Int.gcd_dvd_right c N
  obtain ⟨s, hs⟩ := Int.gcd_dvd_left c N
  have hb := Int.gcd_eq_gcd_ab c N
  obtain ⟨y, hy⟩ := h
  rw [show N / (Int.gcd c N : ℤ) = t from Int.ediv_eq_of_eq_mul_right hg.ne' ht]
  refine ⟨y * Int.gcdA c N + x * Int.gcdB c N, ?_⟩
  have : (Int.gcd c N : ℤ) * x = (Int.gcd c N : ℤ) * (t * (y * Int.gcdA c N + x * Int.gcdB c N)) := by
    have e1 : (Int.gcd c N : ℤ) * x = N * (y * Int.gcdA c N + x * Int.gcdB c N) := by
      linear_combination x * hb + Int.gcdA c N * hy
    rw [e1]; nth_rewrite 1 [ht]; ring
  exact mul_left_cancel₀ hg.ne' this

theorem key_unique {N c d c' d' : ℤ} (hN : 0 < N) (h : Equiv N c d c' d') {k k' : ℤ × ℤ}
    (hk : Key N c d k) (hk' : Key N c' d' k') : k = k' := by
  obtain ⟨w, hw, ⟨x, hx⟩, ⟨y, hy⟩⟩ := h
  have hg := gcd_eq_of_dvd_sub hw ⟨x, hx⟩
  obtain ⟨u, _, ⟨a, ha⟩, rfl⟩ := hk
  obtain ⟨u', _, ⟨a', ha'⟩, rfl⟩ := hk'
  rw [hg] at ha' ⊢
  congr 1
  have hdv : N / (Int.gcd c N : ℤ) ∣ u' * w - u := by
    apply dvd_of_dvd_mul_gcd hN
    exact ⟨a' - a - u' * x, by linear_combination ha' - ha - u' * hx⟩
  obtain ⟨z, hz⟩ := hdv
  have hNd : N / (Int.gcd c N : ℤ) ∣ N := Int.ediv_dvd_of_dvd (Int.gcd_dvd_right c N)
  obtain ⟨q, hq⟩ := hNd
  apply Int.ModEq.eq
  apply (Int.modEq_iff_dvd).2
  refine ⟨z * d + q * y * u', ?_⟩
  linear_combination u' * hy + d * hz + y * u' * hq

theorem isCoprime_of_primes {a N : ℤ} (h : ∀ p : ℤ, Prime p → p ∣ a → p ∣ N → False) :
    IsCoprime a N := by
  rw [Int.isCoprime_iff_gcd_eq_one]
  by_contra hg
  obtain ⟨p, hp, hpd⟩ := Nat.exists_prime_and_dvd hg
  have hpd' : (p : ℤ) ∣ (Int.gcd a N : ℤ) := by exact_mod_cast hpd
  exact h p (Nat.prime_iff_prime_int.1 hp) (hpd'.trans (Int.gcd_dvd_left _ _))
    (hpd'.trans (Int.gcd_dvd_right _ _))

/-- two symbols with the same `c`, a divisor of the level, are equivalent when their second
entries agree modulo `N / c` -/
theorem equiv_of_modEq {N g D D' : ℤ} (hN : 0 < N) (hg : g ∣ N) (h1 : IsCoprime g D)
    (h2 : IsCoprime g D') (h : N / g ∣ D' - D) : Equiv N g D g D' := by
  obtain ⟨t, ht⟩ := hg
  have hg0 : g ≠ 0 := by rintro rfl; simp at ht; omega
  rw [show N / g = t from Int.ediv_eq_of_eq_mul_right hg0 ht] at h
  obtain ⟨s, hs⟩ := h
  obtain ⟨a, b, hab⟩ := h1
  have hwD : N ∣ D' - (1 + s * b * t) * D :=
    ⟨a * s, by linear_combination hs - t * s * hab - a * s * ht⟩
  refine ⟨1 + s * b * t, ?_, ⟨-(s * b), by linear_combination s * b * ht⟩, hwD⟩
  apply isCoprime_of_primes
  intro p hp hpw hpN
  by_cases hpt : p ∣ t
  · have : p ∣ 1 := by
      obtain ⟨x, hx⟩ := hpw
      obtain ⟨y, hy⟩ := hpt
      exact ⟨x - s * b * y, by linear_combination hx - s * b * hy⟩
    exact hp.not_isUnit (isUnit_of_dvd_one this)
  · have hpg : p ∣ g := by
      rw [ht] at hpN
      exact (hp.dvd_or_dvd hpN).resolve_right hpt
    have hpD : p ∣ D' := by
      have := (dvd_sub_left (hpw.mul_right D)).1 (hpN.trans hwD)
      exact this
    exact hp.not_isUnit (h2.isUnit_of_dvd' hpg hpD)

theorem isCoprime_gcd_of_unimod {N c d : ℤ} (h : Unimod N c d) : IsCoprime (Int.gcd c N : ℤ) d := by
  obtain ⟨a, b, k, e⟩ := h
  obtain ⟨s, hs⟩ := Int.gcd_dvd_left c N
  obtain ⟨t, ht⟩ := Int.gcd_dvd_right c N
  exact ⟨a * s + k * t, b, by linear_combination e - a * hs - k * ht⟩

theorem gcd_of_dvd {g N : ℤ} (hg : 0 ≤ g) (h : g ∣ N) : (Int.gcd g N : ℤ) = g :=
  (Int.gcd_eq_left_iff_dvd hg).2 h

/-- the symbol `(c : d)` is equivalent to `(g : u d)` -/
theorem equiv_key {N c d u : ℤ} (hu : IsCoprime u N) (h : N ∣ u * c - Int.gcd c N) :
    Equiv N c d (Int.gcd c N) (u * d) :=
  ⟨u, hu, by rw [← dvd_neg]; simpa using h, by simp⟩

theorem equiv_of_key {N c d c' d' : ℤ} (hN : 0 < N) (h1 : Unimod N c d) (h2 : Unimod N c' d')
    {k : ℤ × ℤ} (hk : Key N c d k) (hk' : Key N c' d' k) : Equiv N c d c' d' := by
  obtain ⟨u, hu, ha, rfl⟩ := hk
  obtain ⟨u', hu', ha', e⟩ := hk'
  rw [Prod.mk.injEq] at e
  obtain ⟨e1, e2⟩ := e
  have q1 := equiv_key (d := d) hu ha
  have q2 := equiv_key (d := d') hu' ha'
  rw [← e1] at q2 e2
  refine Equiv.trans q1 (Equiv.trans ?_ (Equiv.symm q2))
  have hgN : (Int.gcd c N : ℤ) ∣ N := Int.gcd_dvd_right c N
  have f1 := isCoprime_gcd_of_unimod (Unimod.of_equiv q1 h1)
  have f2 := isCoprime_gcd_of_unimod (Unimod.of_equiv q2 h2)
  have hgg := gcd_of_dvd (by omega) hgN
  rw [hgg] at f1 f2
  exact equiv_of_modEq hN hgN f1 f2 ((Int.modEq_iff_dvd).1 e2)

end Eclib.Symb
