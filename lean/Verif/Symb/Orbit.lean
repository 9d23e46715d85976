import Verif.Symb.Keys

/-!
# Counting classes of special symbols
-/

namespace Eclib.Symb

open SymbSpec

/-- both entries are non-units: the symbols `symblist` is for -/
def Special (N c d : ℤ) : Prop := Unimod N c d ∧ Int.gcd c N ≠ 1 ∧ Int.gcd d N ≠ 1

theorem intCast_eq_iff {n : ℕ} {a b : ℤ} : (a : ZMod n) = (b : ZMod n) ↔ (n : ℤ) ∣ b - a :=
  (ZMod.intCast_eq_intCast_iff_dvd_sub a b n)

theorem isUnit_intCast {n : ℕ} {a : ℤ} : IsUnit (a : ZMod n) ↔ IsCoprime a (n : ℤ) := by
  constructor
  · rintro ⟨u, hu⟩
    obtain ⟨b, hb⟩ := ZMod.intCast_surjective (↑u⁻¹ : ZMod n)
    have h : ((b * a : ℤ) : ZMod n) = ((1 : ℤ) : ZMod n) := by
      push_cast; rw [hb, ← hu]; simp
    obtain ⟨k, hk⟩ := intCast_eq_iff.1 h
    exact ⟨b, k, by linear_combination -hk⟩
  · rintro ⟨x, y, h⟩
    have := congrArg (Int.cast : ℤ → ZMod n) h
    push_cast at this
    rw [ZMod.natCast_self, mul_zero, add_zero] at this
    exact IsUnit.of_mul_eq_one _ (by rw [mul_comm]; exact this)

theorem isCoprime_intCast {n : ℕ} {c d : ℤ} :
    IsCoprime (c : ZMod n) (d : ZMod n) ↔ Unimod n c d := by
  constructor
  · rintro ⟨a, b, h⟩
    obtain ⟨a, rfl⟩ := ZMod.intCast_surjective a
    obtain ⟨b, rfl⟩ := ZMod.intCast_surjective b
    have h' : ((a * c + b * d : ℤ) : ZMod n) = ((1 : ℤ) : ZMod n) := by push_cast; exact h
    obtain ⟨k, hk⟩ := intCast_eq_iff.1 h'
    exact ⟨a, b, k, by linear_combination -hk⟩
  · rintro ⟨a, b, k, h⟩
    have := congrArg (Int.cast : ℤ → ZMod n) h
    push_cast at this
    rw [ZMod.natCast_self, mul_zero, add_zero] at this
    exact ⟨a, b, this⟩

theorem equiv_iff_units {n : ℕ} {c d c' d' : ℤ} :
    Equiv n c d c' d' ↔ ∃ u : (ZMod n)ˣ, (c' : ZMod n) = u * c ∧ (d' : ZMod n) = u * d := by
  constructor
  · rintro ⟨u, hu, h1, h2⟩
    obtain ⟨v, hv⟩ := isUnit_intCast.2 hu
    refine ⟨v, ?_, ?_⟩
    · rw [hv, ← Int.cast_mul]; exact (intCast_eq_iff.2 h1).symm
    · rw [hv, ← Int.cast_mul]; exact (intCast_eq_iff.2 h2).symm
  · rintro ⟨v, h1, h2⟩
    obtain ⟨u, hu⟩ := ZMod.intCast_surjective (v : ZMod n)
    refine ⟨u, isUnit_intCast.1 (by rw [hu]; exact v.isUnit), intCast_eq_iff.1 ?_,
      intCast_eq_iff.1 ?_⟩
    · rw [h1, Int.cast_mul, hu]
    · rw [h2, Int.cast_mul, hu]

theorem special_iff {n : ℕ} {c d : ℤ} : Special n c d ↔
    IsCoprime (c : ZMod n) (d : ZMod n) ∧ ¬ IsUnit (c : ZMod n) ∧ ¬ IsUnit (d : ZMod n) := by
  rw [isCoprime_intCast, isUnit_intCast, isUnit_intCast, Int.isCoprime_iff_gcd_eq_one,
    Int.isCoprime_iff_gcd_eq_one]
  rfl

theorem IsCoprime.unit_mul {R : Type*} [CommRing R] {c d : R} (h : IsCoprime c d) (u : Rˣ) :
    IsCoprime (u * c) (u * d) := by
  obtain ⟨a, b, e⟩ := h
  exact ⟨a * ↑u⁻¹, b * ↑u⁻¹, by
    have := u.inv_mul
    linear_combination e + (a * c + b * d) * this⟩

theorem not_isUnit_unit_mul {R : Type*} [CommRing R] {c : R} (h : ¬ IsUnit c) (u : Rˣ) :
    ¬ IsUnit (u * c) := by
  rwa [Units.isUnit_units_mul]

variable {n : ℕ} [NeZero n] (l : List (ℤ × ℤ)) (hs : ∀ s ∈ l, Special n s.1 s.2)

/-- the orbits of the symbols in the list -/
def orbitMap : Fin l.length × (ZMod n)ˣ → SPair n := fun p =>
  let s := l[p.1]
  have h := special_iff.1 (hs s (List.getElem_mem _))
  ⟨(p.2 * (s.1 : ZMod n), p.2 * (s.2 : ZMod n)), IsCoprime.unit_mul h.1 p.2,
    not_isUnit_unit_mul h.2.1 p.2, not_isUnit_unit_mul h.2.2 p.2⟩

omit [NeZero n] in
theorem orbitMap_injective
    (hne : ∀ i j : Fin l.length, Equiv n l[i].1 l[i].2 l[j].1 l[j].2 → i = j) :
    Function.Injective (orbitMap l hs) := by
  rintro ⟨i, u⟩ ⟨j, v⟩ h
  have h0 := congrArg Subtype.val h
  simp only [orbitMap, Prod.mk.injEq] at h0
  obtain ⟨h1, h2⟩ := h0
  have hij : i = j := by
    apply hne
    rw [equiv_iff_units]
    refine ⟨v⁻¹ * u, ?_, ?_⟩
    · rw [Units.val_mul, mul_assoc]; erw [h1]; rw [← mul_assoc, v.inv_mul, one_mul]
    · rw [Units.val_mul, mul_assoc]; erw [h2]; rw [← mul_assoc, v.inv_mul, one_mul]
  subst hij
  congr 1
  obtain ⟨a, b, e⟩ := (special_iff.1 (hs l[i] (List.getElem_mem _))).1
  ext
  linear_combination a * h1 + b * h2 - ((u : ZMod n) - v) * e

omit [NeZero n] in
theorem orbitMap_surjective_iff : Function.Surjective (orbitMap l hs) ↔
    ∀ c d : ℤ, Special n c d → ∃ s ∈ l, Equiv n s.1 s.2 c d := by
  constructor
  · intro h c d hcd
    obtain ⟨⟨i, u⟩, hi⟩ := h ⟨((c : ZMod n), (d : ZMod n)), special_iff.1 hcd⟩
    have h0 := congrArg Subtype.val hi
    simp only [orbitMap, Prod.mk.injEq] at h0
    exact ⟨l[i], List.getElem_mem _, equiv_iff_units.2 ⟨u, h0.1.symm, h0.2.symm⟩⟩
  · rintro h ⟨⟨c, d⟩, hcd⟩
    obtain ⟨c, rfl⟩ := ZMod.intCast_surjective c
    obtain ⟨d, rfl⟩ := ZMod.intCast_surjective d
    obtain ⟨s, hsl, he⟩ := h c d (special_iff.2 hcd)
    obtain ⟨u, hu1, hu2⟩ := equiv_iff_units.1 he
    obtain ⟨i, hi, rfl⟩ := List.getElem_of_mem hsl
    exact ⟨(⟨i, hi⟩, u), Subtype.ext (Prod.ext hu1.symm hu2.symm)⟩

include hs in
/-- a list of pairwise inequivalent special symbols meets every class if and only if it has the
right length -/
theorem complete_iff
    (hne : ∀ i j : Fin l.length, Equiv n l[i].1 l[i].2 l[j].1 l[j].2 → i = j) :
    (∀ c d : ℤ, Special n c d → ∃ s ∈ l, Equiv n s.1 s.2 c d) ↔
      l.length * Nat.totient n = Nat.card (SPair n) := by
  classical
  have hc : Fintype.card (Fin l.length × (ZMod n)ˣ) = l.length * Nat.totient n := by
    rw [Fintype.card_prod, Fintype.card_fin, ZMod.card_units_eq_totient]
  have : Fintype (SPair n) := Fintype.ofFinite _
  rw [← orbitMap_surjective_iff l hs, ← hc, Nat.card_eq_fintype_card]
  have hi := orbitMap_injective l hs hne
  constructor
  · intro h
    exact Fintype.card_of_bijective ⟨hi, h⟩
  · intro h
    exact ((Fintype.bijective_iff_injective_and_card _).2 ⟨hi, h⟩).2

end Eclib.Symb
