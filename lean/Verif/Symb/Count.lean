import Mathlib.Data.ZMod.Units
import Mathlib.Data.ZMod.QuotientRing
import Mathlib.Data.Nat.Totient
import Mathlib.Data.Nat.Factorization.Induction
import Mathlib.RingTheory.Coprime.Basic
import Mathlib.FieldTheory.Finite.Basic
import Mathlib.Tactic.LinearCombination

/-!
# The number of unimodular pairs modulo `n`
-/

namespace Eclib.Symb

open Nat

/-- the pairs `(c, d)` modulo `n` which generate the unit ideal -/
abbrev UPair (n : ℕ) : Type := {v : ZMod n × ZMod n // IsCoprime v.1 v.2}

noncomputable instance (n : ℕ) [NeZero n] : Fintype (UPair n) := Fintype.ofFinite _

theorem isCoprime_prod {R S : Type*} [CommRing R] [CommRing S] (x y : R × S) :
    IsCoprime x y ↔ IsCoprime x.1 y.1 ∧ IsCoprime x.2 y.2 := by
  constructor
  · rintro ⟨a, b, h⟩
    have h1 := congrArg Prod.fst h
    have h2 := congrArg Prod.snd h
    exact ⟨⟨a.1, b.1, h1⟩, ⟨a.2, b.2, h2⟩⟩
  · rintro ⟨⟨a, b, h⟩, ⟨c, d, k⟩⟩
    exact ⟨(a, c), (b, d), Prod.ext h k⟩

theorem isCoprime_equiv {R S : Type*} [CommRing R] [CommRing S] (e : R ≃+* S) (x y : R) :
    IsCoprime (e x) (e y) ↔ IsCoprime x y := by
  constructor
  · intro h
    simpa using h.map (e.symm : S →+* R)
  · intro h
    exact h.map (e : R →+* S)

/-- the Chinese remainder theorem for pairs -/
noncomputable def upairMul (m n : ℕ) (h : m.Coprime n) : UPair (m * n) ≃ UPair m × UPair n where
  toFun v :=
    let e := ZMod.chineseRemainder h
    have hv := (isCoprime_prod _ _).1 ((isCoprime_equiv e v.1.1 v.1.2).2 v.2)
    (⟨((e v.1.1).1, (e v.1.2).1), hv.1⟩, ⟨((e v.1.1).2, (e v.1.2).2), hv.2⟩)
  invFun w :=
    let e := ZMod.chineseRemainder h
    ⟨(e.symm (w.1.1.1, w.2.1.1), e.symm (w.1.1.2, w.2.1.2)),
      (isCoprime_equiv e.symm _ _).2 ((isCoprime_prod _ _).2 ⟨w.1.2, w.2.2⟩)⟩
  left_inv v := by
    simp
  right_inv w := by
    simp

theorem isCoprime_primePow {p k : ℕ} (hp : p.Prime) (hk : 0 < k) (c d : ZMod (p ^ k)) :
    IsCoprime c d ↔ IsUnit c ∨ IsUnit d := by
  have hpk : NeZero (p ^ k) := ⟨pow_ne_zero _ hp.ne_zero⟩
  have hnon : ∀ c : ZMod (p ^ k), ¬ IsUnit c →
      ZMod.castHom (dvd_pow_self p hk.ne') (ZMod p) c = 0 := by
    intro c hc
    rw [← ZMod.natCast_zmod_val c, ZMod.isUnit_iff_coprime, Nat.coprime_pow_right_iff hk,
      Nat.coprime_comm, hp.coprime_iff_not_dvd, not_not] at hc
    rw [← ZMod.natCast_zmod_val c, map_natCast]
    exact (ZMod.natCast_eq_zero_iff _ _).2 hc
  constructor
  · intro h
    by_contra hn
    push Not at hn
    obtain ⟨a, b, e⟩ := h
    have := congrArg (ZMod.castHom (dvd_pow_self p hk.ne') (ZMod p)) e
    rw [map_add, map_mul, map_mul, hnon c hn.1, hnon d hn.2, map_one, mul_zero, mul_zero,
      add_zero] at this
    have : Fact p.Prime := ⟨hp⟩
    exact zero_ne_one (by assumption)
  · rintro (h | h)
    · obtain ⟨u, rfl⟩ := h
      exact ⟨(↑u⁻¹ : ZMod (p ^ k)), 0, by simp⟩
    · obtain ⟨u, rfl⟩ := h
      exact ⟨0, (↑u⁻¹ : ZMod (p ^ k)), by simp⟩

theorem card_nonunits (n : ℕ) [NeZero n] : Nat.card {c : ZMod n // ¬ IsUnit c} + φ n = n := by
  have h1 : Nat.card {c : ZMod n // IsUnit c} = φ n := by
    rw [← ZMod.card_units_eq_totient, ← Nat.card_eq_fintype_card]
    refine Nat.card_congr ⟨fun c => c.2.unit, fun u => ⟨u, u.isUnit⟩, fun c => ?_, fun u => ?_⟩
    · simp
    · ext; simp
  rw [← h1, add_comm]
  have := Nat.card_congr (Equiv.sumCompl (fun c : ZMod n => IsUnit c))
  rw [Nat.card_sum, Nat.card_zmod] at this
  exact this

theorem card_upair_primePow {p k : ℕ} (hp : p.Prime) (hk : 0 < k) :
    Nat.card (UPair (p ^ k)) + (p ^ (k - 1)) ^ 2 = (p ^ k) ^ 2 := by
  have hpk : NeZero (p ^ k) := ⟨pow_ne_zero _ hp.ne_zero⟩
  have hnon : Nat.card {c : ZMod (p ^ k) // ¬ IsUnit c} = p ^ (k - 1) := by
    have h1 := card_nonunits (p ^ k)
    have h2 := Nat.totient_prime_pow hp hk
    obtain ⟨j, rfl⟩ : ∃ j, k = j + 1 := ⟨k - 1, by omega⟩
    rw [h2] at h1
    simp only [Nat.add_sub_cancel] at h1 ⊢
    have : p ^ (j + 1) = p ^ j + p ^ j * (p - 1) := by
      have := hp.one_lt
      obtain ⟨q, rfl⟩ : ∃ q, p = q + 1 := ⟨p - 1, by omega⟩
      simp only [Nat.add_sub_cancel]; ring
    omega
  have hcompl : Nat.card {v : ZMod (p ^ k) × ZMod (p ^ k) // ¬ IsCoprime v.1 v.2} =
      (p ^ (k - 1)) ^ 2 := by
    rw [pow_two, ← hnon, ← Nat.card_prod]
    refine Nat.card_congr ⟨fun v => (⟨v.1.1, ?_⟩, ⟨v.1.2, ?_⟩), fun w => ⟨(w.1.1, w.2.1), ?_⟩, ?_, ?_⟩
    · have := v.2; rw [isCoprime_primePow hp hk] at this; tauto
    · have := v.2; rw [isCoprime_primePow hp hk] at this; tauto
    · rw [isCoprime_primePow hp hk]
      have := w.1.2; have := w.2.2; tauto
    · intro v; rfl
    · intro w; rfl
  classical
  have := Nat.card_congr (Equiv.sumCompl
    (fun v : ZMod (p ^ k) × ZMod (p ^ k) => IsCoprime v.1 v.2))
  rw [Nat.card_sum, Nat.card_prod, Nat.card_zmod, hcompl, ← pow_two] at this
  exact this

/-- the number of unimodular pairs: `n² ∏ (1 - p⁻²)` -/
theorem card_upair (n : ℕ) (hn : 0 < n) :
    Nat.card (UPair n) * ∏ p ∈ n.primeFactors, p ^ 2 = n ^ 2 * ∏ p ∈ n.primeFactors, (p ^ 2 - 1) := by
  induction n using Nat.recOnPosPrimePosCoprime with
  | zero => exact absurd hn (lt_irrefl _)
  | one =>
    simp only [primeFactors_one, Finset.prod_empty, mul_one, one_pow]
    have : Subsingleton (UPair 1) := ⟨fun a b => Subtype.ext (Subsingleton.elim _ _)⟩
    have : Nonempty (UPair 1) := ⟨⟨(0, 0), 0, 0, Subsingleton.elim _ _⟩⟩
    exact Nat.card_eq_one_iff_unique.2 ⟨inferInstance, inferInstance⟩
  | prime_pow p k hp hk =>
    have h := card_upair_primePow hp hk
    rw [Nat.primeFactors_prime_pow hk.ne' hp, Finset.prod_singleton, Finset.prod_singleton]
    obtain ⟨j, rfl⟩ : ∃ j, k = j + 1 := ⟨k - 1, by omega⟩
    simp only [Nat.add_sub_cancel] at h
    have h1 : 1 ≤ p ^ 2 := Nat.one_le_pow _ _ hp.pos
    zify [h1] at h ⊢
    have : (Nat.card (UPair (p ^ (j + 1))) : ℤ) = (p ^ (j + 1)) ^ 2 - (p ^ j) ^ 2 := by linarith
    rw [this]; ring
  | coprime a b ha hb hab iha ihb =>
    rw [Nat.card_congr (upairMul a b hab), Nat.card_prod, hab.primeFactors_mul,
      Finset.prod_union hab.disjoint_primeFactors, Finset.prod_union hab.disjoint_primeFactors]
    have h1 := iha (by omega)
    have h2 := ihb (by omega)
    calc _ = (Nat.card (UPair a) * ∏ p ∈ a.primeFactors, p ^ 2) *
          (Nat.card (UPair b) * ∏ p ∈ b.primeFactors, p ^ 2) := by ring
      _ = _ := by rw [h1, h2]; ring

/-- the unimodular pairs of non-units -/
abbrev SPair (n : ℕ) : Type :=
  {v : ZMod n × ZMod n // IsCoprime v.1 v.2 ∧ ¬ IsUnit v.1 ∧ ¬ IsUnit v.2}

theorem card_spair (n : ℕ) [NeZero n] :
    Nat.card (SPair n) + n * φ n + φ n * (n - φ n) = Nat.card (UPair n) := by
  classical
  have hnon := card_nonunits n
  rw [Nat.card_eq_fintype_card, Fintype.card_subtype] at hnon
  have hun : (Finset.univ.filter fun c : ZMod n => IsUnit c).card = φ n := by
    have h := Finset.card_filter_add_card_filter_not (s := (Finset.univ : Finset (ZMod n)))
      (fun c => IsUnit c)
    rw [Finset.card_univ, ZMod.card] at h
    omega
  have hn2 : (Finset.univ.filter fun c : ZMod n => ¬ IsUnit c).card = n - φ n := by omega
  rw [Nat.card_eq_fintype_card, Fintype.card_subtype, Nat.card_eq_fintype_card,
    Fintype.card_subtype]
  have hA : ((Finset.univ.filter fun v : ZMod n × ZMod n => IsCoprime v.1 v.2).filter
      fun v => IsUnit v.2).card = n * φ n := by
    have hp : ((Finset.univ : Finset (ZMod n)) ×ˢ
        (Finset.univ.filter fun c : ZMod n => IsUnit c)).card = n * φ n := by
      rw [Finset.card_product, hun, Finset.card_univ, ZMod.card]
    rw [← hp]
    congr 1
    ext v
    simp only [Finset.mem_filter, Finset.mem_univ, true_and, Finset.mem_product]
    refine ⟨fun h => h.2, fun h => ⟨?_, h⟩⟩
    obtain ⟨u, hu⟩ := h
    exact ⟨0, (↑u⁻¹ : ZMod n), by rw [← hu]; simp⟩
  have hB : (((Finset.univ.filter fun v : ZMod n × ZMod n => IsCoprime v.1 v.2).filter
      fun v => ¬ IsUnit v.2).filter fun v => IsUnit v.1).card = φ n * (n - φ n) := by
    rw [← hn2, ← hun, ← Finset.card_product]
    congr 1
    ext v
    simp only [Finset.mem_filter, Finset.mem_univ, true_and, Finset.mem_product]
    refine ⟨fun h => ⟨h.2, h.1.2⟩, fun h => ⟨⟨?_, h.2⟩, h.1⟩⟩
    obtain ⟨u, hu⟩ := h.1
    exact ⟨(↑u⁻¹ : ZMod n), 0, by rw [← hu]; simp⟩
  have hC : (((Finset.univ.filter fun v : ZMod n × ZMod n => IsCoprime v.1 v.2).filter
      fun v => ¬ IsUnit v.2).filter fun v => ¬ IsUnit v.1) = Finset.univ.filter
      fun v : ZMod n × ZMod n => IsCoprime v.1 v.2 ∧ ¬ IsUnit v.1 ∧ ¬ IsUnit v.2 := by
    ext v
    simp only [Finset.mem_filter, Finset.mem_univ, true_and]
    tauto
  have h1 := Finset.card_filter_add_card_filter_not
    (s := Finset.univ.filter fun v : ZMod n × ZMod n => IsCoprime v.1 v.2) (fun v => IsUnit v.2)
  have h2 := Finset.card_filter_add_card_filter_not
    (s := (Finset.univ.filter fun v : ZMod n × ZMod n => IsCoprime v.1 v.2).filter
      fun v => ¬ IsUnit v.2) (fun v => IsUnit v.1)
  rw [hA] at h1
  rw [hB, hC] at h2
  omega

end Eclib.Symb
