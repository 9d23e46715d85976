import Verif.Rank2.Loc
import Verif.Rank2.Group
import Verif.Local.LocSolPadic
import Verif.Local.LocSolProps
import Verif.Local.Padic
import Mathlib.NumberTheory.LegendreSymbol.QuadraticChar.Basic
import Mathlib.Data.ZMod.Basic

/-!
# The pair of isogenies; homogeneous spaces at primes of good reduction
-/

namespace Eclib.Rank2

set_option linter.unusedSectionVars false

open WeierstrassCurve
open Eclib.Sift (dl dl_add dl_ne dl_neg)

section field
variable {K : Type} [Field K] [DecidableEq K]

theorem Nd.dual {c d : K} (nd : Nd c d) : Nd (-2 * c) (c ^ 2 - 4 * d) := by
  refine ⟨nd.two, nd.d0, ?_⟩
  rw [show (-2 * c) ^ 2 - 4 * (c ^ 2 - 4 * d) = 2 * 2 * (2 * 2) * d by ring]
  have h2 := nd.two
  exact mul_ne_zero (mul_ne_zero (mul_ne_zero h2 h2) (mul_ne_zero h2 h2)) nd.b0

theorem isF {c d : K} (nd : Nd c d) : Is c d 1 (-2 * c) (c ^ 2 - 4 * d) := by
  refine ⟨nd, nd.dual, one_ne_zero, by ring, by ring⟩

theorem isG {c d : K} (nd : Nd c d) : Is (-2 * c) (c ^ 2 - 4 * d) (1 / 2) c d := by
  have := nd.two
  refine ⟨nd.dual, nd, by simpa using this, ?_, ?_⟩
  · field_simp
  · have h16 : (16 : K) ≠ 0 := by
      rw [show (16 : K) = 2 * 2 * (2 * 2) by norm_num]
      exact mul_ne_zero (mul_ne_zero this this) (mul_ne_zero this this)
    rw [show (1 / 2 : K) ^ 4 = 1 / 16 by rw [div_pow]; norm_num]
    field_simp
    ring

theorem card_ker {a b t a' b' : K} (h : Is a b t a' b') : Nat.card (isogHom h).ker = 2 := by
  have e : ((isogHom h).ker : Set (Cu a b).toAffine.Point) = {0, pT h.nd} := by
    ext P
    rw [SetLike.mem_coe, AddMonoidHom.mem_ker]
    exact isog_ker h P
  have hne : (0 : (Cu a b).toAffine.Point) ≠ pT h.nd := by
    intro h0
    unfold pT pt at h0
    exact Affine.Point.some_ne_zero _ h0.symm
  show Nat.card ((isogHom h).ker : Set (Cu a b).toAffine.Point) = 2
  rw [e]
  exact Set.ncard_pair hne

theorem pair_index {c d : K} (nd : Nd c d) {r : ℕ} {F : Type} [AddCommGroup F] [Finite F]
    (e : (Cu c d).toAffine.Point ≃+ (Fin r → ℤ) × F) :
    2 ^ (r + 2) = (isogHom (isG nd)).range.index * (isogHom (isF nd)).range.index := by
  refine rank_index (fun P => isog_dual (isF nd) (isG nd) ?_ P) (card_ker _) (card_ker _) e
  have := nd.two
  field_simp

theorem mem_range {a b t a' b' : K} (h : Is a b t a' b') (Q : (Cu a' b').toAffine.Point) :
    Q ∈ (isogHom h).range ↔ IsSquare (dl (Cu a' b') 0 Q) := by
  constructor
  · rintro ⟨P, rfl⟩
    exact dl_isog h P
  · intro hQ
    obtain ⟨P, hP⟩ := isog_surj h Q hQ
    exact ⟨P, hP⟩

theorem sq_of {a b : K} (ha : a ≠ 0) (hb : b ≠ 0) (h : IsSquare (a * b)) : IsSquare a ↔ IsSquare b := by
  obtain ⟨s, hs⟩ := h
  constructor
  · rintro ⟨r, rfl⟩
    have hr : r ≠ 0 := by rintro rfl; simp at ha
    refine ⟨s / r, ?_⟩
    field_simp
    linear_combination hs
  · rintro ⟨r, rfl⟩
    have hr : r ≠ 0 := by rintro rfl; simp at hb
    refine ⟨s / r, ?_⟩
    field_simp
    linear_combination hs

theorem sq_sub {a b : K} (nd : Nd a b) (P Q : (Cu a b).toAffine.Point) :
    IsSquare (dl (Cu a b) 0 (-P + Q)) ↔ IsSquare (dl (Cu a b) 0 P * dl (Cu a b) 0 Q) := by
  have h := dl_add nd.two nd.disc (g2_zero a b) (-P) Q
  rw [dl_neg] at h
  have n1 := dl_ne nd.two nd.disc (g2_zero a b) P
  have n2 := dl_ne nd.two nd.disc (g2_zero a b) Q
  exact (sq_of (mul_ne_zero n1 n2) (dl_ne nd.two nd.disc (g2_zero a b) _) h).symm

end field

/-! ## finite fields -/

section finite
variable {F : Type} [Field F] [Fintype F] [DecidableEq F]

instance (c d : F) : Finite (Cu c d).toAffine.Point := by
  refine Finite.of_injective (β := Option (F × F)) (fun P => match P with | .zero => none | .some x y _ => some (x, y)) ?_
  rintro (_ | ⟨x, y, h⟩) (_ | ⟨x', y', h'⟩) hh
  · rfl
  · simp at hh
  · simp at hh
  · simp only [Option.some.injEq, Prod.mk.injEq] at hh
    obtain ⟨rfl, rfl⟩ := hh
    rfl

theorem sq_mul_finite {a b : F} (ha : ¬ IsSquare a) (hb : ¬ IsSquare b) : IsSquare (a * b) := by
  have ha0 : a ≠ 0 := by rintro rfl; exact ha (IsSquare.zero)
  have hb0 : b ≠ 0 := by rintro rfl; exact hb (IsSquare.zero)
  rw [← quadraticChar_one_iff_isSquare (mul_ne_zero ha0 hb0), map_mul,
    quadraticChar_neg_one_iff_not_isSquare.2 ha, quadraticChar_neg_one_iff_not_isSquare.2 hb]
  norm_num

theorem index_le {a b t a' b' : F} (h : Is a b t a' b') : (isogHom h).range.index ≤ 2 := by
  by_cases hall : ∀ Q, IsSquare (dl (Cu a' b') 0 Q)
  · have : (isogHom h).range = ⊤ := by
      rw [eq_top_iff]
      intro Q _
      exact (mem_range h Q).2 (hall Q)
    rw [this, AddSubgroup.index_top]
    norm_num
  · push Not at hall
    obtain ⟨P, hP⟩ := hall
    apply le_of_eq
    rw [AddSubgroup.index_eq_two_iff']
    refine ⟨-P, fun Q => ?_⟩
    rw [mem_range, mem_range, sq_sub h.nd']
    by_cases hQ : IsSquare (dl (Cu a' b') 0 Q)
    · refine Or.inr ⟨hQ, fun hh => hP ?_⟩
      have n1 := dl_ne h.nd'.two h.nd'.disc (g2_zero a' b') P
      exact (sq_of n1 (dl_ne h.nd'.two h.nd'.disc (g2_zero a' b') Q) hh).2 hQ
    · exact Or.inl ⟨sq_mul_finite hP hQ, hQ⟩

/-- over a finite field every homogeneous space has a point -/
theorem QP_finite {c d D d2 : F} (nd : Nd c d) (hd : D * d2 = d) : QP c D d2 := by
  have hD : D ≠ 0 := by rintro rfl; exact nd.b0 (by rw [← hd]; ring)
  have h1 := pair_index (r := 0) (F := (Cu c d).toAffine.Point) nd (AddEquiv.uniqueProd (M := (Cu c d).toAffine.Point) (N := Fin 0 → ℤ)).symm
  have h2 := index_le (isF nd)
  have h3 := index_le (isG nd)
  have h4 : (isogHom (isG nd)).range.index ≠ 1 := by
    intro h
    rw [h] at h1
    omega
  rw [Ne, AddSubgroup.index_eq_one] at h4
  have h5 : ∃ P, ¬ IsSquare (dl (Cu c d) 0 P) := by
    by_contra hc
    push Not at hc
    apply h4
    rw [eq_top_iff]
    intro Q _
    exact (mem_range _ Q).2 (hc Q)
  obtain ⟨P, hP⟩ := h5
  rw [QP_iff nd hD hd]
  by_cases hs : IsSquare D
  · exact ⟨0, by rw [dl_zero, mul_one]; exact hs⟩
  · exact ⟨P, sq_mul_finite hs hP⟩

end finite

/-! ## the `p`-adic numbers -/

theorem cast_zero_iff (p : ℕ) (a : ℤ) : (a : ZMod p) = 0 ↔ (p : ℤ) ∣ a := ZMod.intCast_zmod_eq_zero_iff_dvd a p

/-- at a prime of good reduction every homogeneous space has a point -/
theorem good_prime {p : ℕ} [hp : Fact p.Prime] {c d D d2 : ℤ} (hd : D * d2 = d)
    (hg : ¬ (p : ℤ) ∣ 2 * d * (c ^ 2 - 4 * d)) : LocSol.HasPoint p D 0 c 0 d2 := by
  have hpp : Prime (p : ℤ) := Nat.prime_iff_prime_int.1 hp.out
  have h2 : ¬ (p : ℤ) ∣ 2 := fun h => hg ((h.mul_right _).mul_right _)
  have hdd : ¬ (p : ℤ) ∣ d := fun h => hg ((h.mul_left _).mul_right _)
  have hdd' : ¬ (p : ℤ) ∣ c ^ 2 - 4 * d := fun h => hg (h.mul_left _)
  have nd : Nd (c : ZMod p) (d : ZMod p) := by
    refine ⟨?_, ?_, ?_⟩
    · have := (cast_zero_iff p 2).not.2 h2
      exact_mod_cast this
    · exact (cast_zero_iff p d).not.2 hdd
    · have := (cast_zero_iff p _).not.2 hdd'
      push_cast at this
      exact this
  obtain ⟨x, y, z, h0, h⟩ := QP_finite (D := (D : ZMod p)) (d2 := (d2 : ZMod p)) nd (by rw [← hd]; push_cast; rfl)
  obtain ⟨X, rfl⟩ := ZMod.intCast_surjective x
  obtain ⟨Y, rfl⟩ := ZMod.intCast_surjective y
  obtain ⟨Z, rfl⟩ := ZMod.intCast_surjective z
  rw [cast_zero_iff, cast_zero_iff] at h0
  have hdv : (p : ℤ) ∣ Y ^ 2 - (D * X ^ 4 + c * X ^ 2 * Z ^ 2 + d2 * Z ^ 4) := by
    rw [← cast_zero_iff]
    push_cast
    rw [h]
    ring
  have hp2 : p ≠ 2 := by
    rintro rfl
    exact h2 (by norm_num)
  have hXZ : ∀ X Z : ℤ, ¬ ((p : ℤ) ∣ X ∧ (p : ℤ) ∣ Z) → ¬ ((X : ℚ_[p]) = 0 ∧ (Z : ℚ_[p]) = 0) := by
    intro X Z h ⟨h1, h2⟩
    apply h
    have h1' : X = 0 := by exact_mod_cast h1
    have h2' : Z = 0 := by exact_mod_cast h2
    rw [h1', h2']
    exact ⟨dvd_zero _, dvd_zero _⟩
  by_cases hY : (p : ℤ) ∣ Y
  · -- a root of the quartic modulo `p`
    have hF : (p : ℤ) ∣ D * X ^ 4 + c * X ^ 2 * Z ^ 2 + d2 * Z ^ 4 := by
      have : D * X ^ 4 + c * X ^ 2 * Z ^ 2 + d2 * Z ^ 4 = Y * Y - (Y ^ 2 - (D * X ^ 4 + c * X ^ 2 * Z ^ 2 + d2 * Z ^ 4)) := by ring
      rw [this]
      exact dvd_sub (hY.mul_left _) hdv
    have hDp : ¬ (p : ℤ) ∣ D := fun h => hdd (by rw [← hd]; exact h.mul_right _)
    have hd2p : ¬ (p : ℤ) ∣ d2 := fun h => hdd (by rw [← hd]; exact h.mul_left _)
    have hX : ¬ (p : ℤ) ∣ X := by
      intro hX
      apply h0
      refine ⟨hX, ?_⟩
      have : (p : ℤ) ∣ d2 * Z ^ 4 := by
        have e : d2 * Z ^ 4 = D * X ^ 4 + c * X ^ 2 * Z ^ 2 + d2 * Z ^ 4 - X * (D * X ^ 3 + c * X * Z ^ 2) := by ring
        rw [e]
        exact dvd_sub hF (hX.mul_right _)
      exact hpp.dvd_of_dvd_pow ((hpp.dvd_or_dvd this).resolve_left hd2p)
    have hZ : ¬ (p : ℤ) ∣ Z := by
      intro hZ
      have : (p : ℤ) ∣ D * X ^ 4 := by
        have e : D * X ^ 4 = D * X ^ 4 + c * X ^ 2 * Z ^ 2 + d2 * Z ^ 4 - Z * (c * X ^ 2 * Z + d2 * Z ^ 3) := by ring
        rw [e]
        exact dvd_sub hF (hZ.mul_right _)
      exact hX (hpp.dvd_of_dvd_pow ((hpp.dvd_or_dvd this).resolve_left hDp))
    have hder : ¬ (p : ℤ) ∣ 4 * D * X ^ 3 + 2 * c * X * Z ^ 2 := by
      intro hh
      have h3 : (p : ℤ) ∣ 2 * D * X ^ 2 + c * Z ^ 2 := by
        have e : 4 * D * X ^ 3 + 2 * c * X * Z ^ 2 = 2 * X * (2 * D * X ^ 2 + c * Z ^ 2) := by ring
        rw [e] at hh
        rcases hpp.dvd_or_dvd hh with h4 | h4
        · rcases hpp.dvd_or_dvd h4 with h5 | h5
          · exact absurd h5 h2
          · exact absurd h5 hX
        · exact h4
      have h4 : (p : ℤ) ∣ (c ^ 2 - 4 * d) * Z ^ 4 := by
        have e : (c ^ 2 - 4 * d) * Z ^ 4 = (2 * D * X ^ 2 + c * Z ^ 2) * (2 * D * X ^ 2 + c * Z ^ 2) -
            (D * X ^ 4 + c * X ^ 2 * Z ^ 2 + d2 * Z ^ 4) * (4 * D) := by rw [← hd]; ring
        rw [e]
        exact dvd_sub (h3.mul_right _) (hF.mul_right _)
      rcases hpp.dvd_or_dvd h4 with h5 | h5
      · exact hdd' h5
      · exact hZ (hpp.dvd_of_dvd_pow h5)
    obtain ⟨α, hα⟩ := hF
    obtain ⟨t, ht⟩ := LocSol.hensel_lin (p := p) (α : ℤ_[p]) ((4 * D * X ^ 3 + 2 * c * X * Z ^ 2 : ℤ) : ℤ_[p])
      (6 * D * X ^ 2 + c * Z ^ 2) (4 * D * X * p) (D * p ^ 2) (Local.norm_int_eq_one hder)
    refine ⟨(((X : ℤ_[p]) + p * t : ℤ_[p]) : ℚ_[p]), 0, Z, ?_, ?_⟩
    · rintro ⟨-, h6⟩
      apply hZ
      have : Z = 0 := by exact_mod_cast h6
      rw [this]
      exact dvd_zero _
    · have hα' : (D : ℤ_[p]) * X ^ 4 + c * X ^ 2 * Z ^ 2 + d2 * Z ^ 4 = p * α := by exact_mod_cast congrArg (Int.cast : ℤ → ℤ_[p]) hα
      have key : (D : ℤ_[p]) * (X + p * t) ^ 4 + c * (X + p * t) ^ 2 * Z ^ 2 + d2 * Z ^ 4 = 0 := by
        push_cast at ht
        linear_combination (p : ℤ_[p]) * ht + hα'
      have key' := congrArg (fun z : ℤ_[p] => (z : ℚ_[p])) key
      push_cast at key' ⊢
      linear_combination -key'
  · have hF : ¬ (p : ℤ) ∣ D * X ^ 4 + c * X ^ 2 * Z ^ 2 + d2 * Z ^ 4 := by
      intro hF
      have : (p : ℤ) ∣ Y ^ 2 := by
        have e : Y ^ 2 = Y ^ 2 - (D * X ^ 4 + c * X ^ 2 * Z ^ 2 + d2 * Z ^ 4) + (D * X ^ 4 + c * X ^ 2 * Z ^ 2 + d2 * Z ^ 4) := by ring
        rw [e]
        exact dvd_add hdv hF
      exact hY (hpp.dvd_of_dvd_pow this)
    obtain ⟨w, hw⟩ := Local.sqrt_odd hp2 hF hdv
    refine ⟨X, w, Z, hXZ X Z h0, ?_⟩
    have := congrArg (fun z : ℤ_[p] => (z : ℚ_[p])) hw
    push_cast at this ⊢
    linear_combination this

end Eclib.Rank2
