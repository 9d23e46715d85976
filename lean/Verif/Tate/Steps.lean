import Verif.Tate.Unique2
import Verif.Tate.AlgModel
import Verif.Curve.Invariants
import Mathlib.Algebra.QuadraticDiscriminant
import Mathlib.NumberTheory.LegendreSymbol.JacobiSymbol

/-!
# The steps of Tate's algorithm
-/

namespace Eclib.Tate

open WeierstrassCurve
open Eclib.Marith (XGcd SqrRootMod val div mod invmod legendre sqrtModP)
open Eclib.Curve (Cd fdiv_eq div_iff')

/-! ### the auxiliary functions -/

theorem prime_even {p : ℕ} (hp : p.Prime) : (p : ℤ) % 2 = 0 ↔ p = 2 := by
  constructor
  · intro h
    have : p % 2 = 0 := by omega
    rcases hp.eq_two_or_odd with h | h <;> omega
  · rintro rfl; norm_num

theorem fmod_cast (p : ℕ) (a : ℤ) : ((a.fmod p : ℤ) : ZMod p) = a := by
  have h : (p : ℤ) ∣ a.fmod p - a := by
    have := Int.fmod_add_mul_fdiv a p
    exact ⟨-(a.fdiv p), by linarith⟩
  have := (ZMod.intCast_zmod_eq_zero_iff_dvd _ p).2 h
  push_cast at this
  exact sub_eq_zero.1 this

theorem smod_cast {p : ℕ} (hp : p ≠ 0) (a : ℤ) : ((mod a p : ℤ) : ZMod p) = a := by
  have h : (p : ℤ) ∣ mod a p - a := (Marith.Props.C04_mod_big a p (by exact_mod_cast hp)).1
  have := (ZMod.intCast_zmod_eq_zero_iff_dvd _ p).2 h
  push_cast at this
  exact sub_eq_zero.1 this

theorem dvd_iff_cast (p : ℕ) (a : ℤ) : (p : ℤ) ∣ a ↔ (a : ZMod p) = 0 :=
  (ZMod.intCast_zmod_eq_zero_iff_dvd a p).symm

theorem invmod_cast (X : XGcd) {p : ℕ} [Fact p.Prime] {a : ℤ} (ha : (a : ZMod p) ≠ 0) :
    ((invmod X a p : ℤ) : ZMod p) = (a : ZMod p)⁻¹ := by
  have h : (p : ℤ) ∣ a * invmod X a p - 1 := by
    apply (Marith.Props.C02_invmod_big X a p).1
    obtain ⟨x, hx⟩ := ZMod.intCast_surjective ((a : ZMod p)⁻¹)
    refine ⟨x, (dvd_iff_cast p _).2 ?_⟩
    push_cast
    rw [hx, mul_inv_cancel₀ ha, sub_self]
  rw [dvd_iff_cast] at h
  push_cast at h
  exact eq_inv_of_mul_eq_one_right (sub_eq_zero.1 h)

theorem root2_cast (L : Lib) (a : ℤ) : ((root L a 2 2 : ℤ) : ZMod 2) = a := by
  unfold root
  simp only
  have h0 := Int.fmod_nonneg_of_pos a (b := 2) (by norm_num)
  have h1 := Int.fmod_lt_of_pos a (b := 2) (by norm_num)
  have hc := fmod_cast 2 a
  simp only [Nat.cast_ofNat] at hc
  split_ifs with h
  · exact hc
  · have : a.fmod 2 = 1 := by omega
    rw [this] at hc ⊢
    unfold sqrtModP
    simp only [L.sq_one]
    simpa using hc

theorem root3_cast (L : Lib) (a : ℤ) : ((root L a 3 3 : ℤ) : ZMod 3) = a := by
  unfold root
  simp only
  have h0 := Int.fmod_nonneg_of_pos a (b := 3) (by norm_num)
  have h1 := Int.fmod_lt_of_pos a (b := 3) (by norm_num)
  have hc := fmod_cast 3 a
  simp only [Nat.cast_ofNat] at hc
  rw [if_neg (by norm_num : ¬ (3 : ℕ) = 2)]
  split_ifs with h
  · exact hc
  · have : a.fmod 3 = 1 ∨ a.fmod 3 = 2 := by omega
    rcases this with e | e <;> rw [e] at hc ⊢ <;> rw [← hc] <;> decide +kernel

theorem roots_two : ∀ a b c : ZMod 2, a * b * c = 0 ↔ a = 0 ∨ ∃ x, a * x ^ 2 + b * x + c = 0 := by decide

theorem b2_two : ∀ x y : ZMod 2, x ^ 2 + 4 * y = 0 ↔ x = 0 := by decide

/-- the test for roots of a quadratic -/
theorem rootsexist_spec {p : ℕ} (hp : p.Prime) (a b c : ℤ) : ∃ e, rootsexist a b c p = some e ∧
    (e = true ↔ (p : ℤ) ∣ a ∨ ∃ x : ℤ, (p : ℤ) ∣ a * x ^ 2 + b * x + c) := by
  have := Fact.mk hp
  unfold rootsexist
  by_cases h2 : (p : ℤ) % 2 = 0
  · rw [if_pos h2]
    obtain rfl := (prime_even hp).1 h2
    refine ⟨_, rfl, ?_⟩
    rw [decide_eq_true_iff]
    have e : (a * b * c).fmod ((2 : ℕ) : ℤ) = 0 ↔ ((a * b * c : ℤ) : ZMod 2) = 0 := by
      rw [← dvd_iff_cast]
      exact ⟨Int.dvd_of_fmod_eq_zero, fun ⟨k, hk⟩ => by rw [hk]; exact Int.mul_fmod_right _ _⟩
    rw [e, dvd_iff_cast]
    push_cast
    rw [roots_two]
    refine or_congr Iff.rfl ⟨?_, ?_⟩
    · rintro ⟨x, hx⟩
      obtain ⟨y, rfl⟩ := ZMod.intCast_surjective x
      exact ⟨y, (dvd_iff_cast 2 _).2 (by push_cast; exact hx)⟩
    · rintro ⟨x, hx⟩
      have := (dvd_iff_cast 2 _).1 hx
      push_cast at this
      exact ⟨x, this⟩
  rw [if_neg h2]
  have hodd : Odd p := by
    rcases hp.eq_two_or_odd' with h | h
    · exact (h2 (by rw [h]; rfl)).elim
    · exact h
  simp only
  have hfm : ∀ z : ℤ, z.fmod p = 0 ↔ (z : ZMod p) = 0 := fun z => by
    rw [← dvd_iff_cast]
    exact ⟨Int.dvd_of_fmod_eq_zero, fun ⟨k, hk⟩ => by rw [hk]; exact Int.mul_fmod_right _ _⟩
  split_ifs with h1 h3
  · exact ⟨true, rfl, iff_of_true rfl (Or.inl ((dvd_iff_cast p a).2 ((hfm a).1 h1)))⟩
  · refine ⟨true, rfl, iff_of_true rfl (Or.inr ⟨0, (dvd_iff_cast p _).2 ?_⟩)⟩
    have := (hfm c).1 h3
    push_cast; simp [this]
  · have ha : (a : ZMod p) ≠ 0 := fun h => h1 ((hfm a).2 h)
    rw [Marith.Props.C05_legendre_big _ p hodd]
    refine ⟨_, rfl, ?_⟩
    rw [decide_eq_true_iff]
    have hj : jacobiSym (b.fmod p * b.fmod p - 4 * a.fmod p * c.fmod p) p ≥ 0 ↔
        IsSquare ((b : ZMod p) * b - 4 * a * c) := by
      rw [← jacobiSym.legendreSym.to_jacobiSym]
      have h := legendreSym.eq_neg_one_iff p (a := b.fmod p * b.fmod p - 4 * a.fmod p * c.fmod p)
      push_cast [fmod_cast] at h
      rw [← not_iff_not, ← h]
      rcases jacobiSym.trichotomy (b.fmod p * b.fmod p - 4 * a.fmod p * c.fmod p) p with h | h | h <;>
        rw [← jacobiSym.legendreSym.to_jacobiSym] at h <;> rw [h] <;> norm_num
    rw [hj]
    have hz2 : (2 : ZMod p) ≠ 0 := by
      intro h
      have : ((2 : ℕ) : ZMod p) = 0 := by exact_mod_cast h
      rw [ZMod.natCast_eq_zero_iff] at this
      have := (Nat.prime_dvd_prime_iff_eq hp Nat.prime_two).1 this
      subst this; exact h2 rfl
    have : NeZero (2 : ZMod p) := ⟨hz2⟩
    constructor
    · rintro ⟨s, hs⟩
      obtain ⟨x, hx⟩ := exists_quadratic_eq_zero (b := (b : ZMod p)) (c := (c : ZMod p)) ha
        ⟨s, by unfold discrim; rw [← hs]; ring⟩
      obtain ⟨y, rfl⟩ := ZMod.intCast_surjective x
      exact Or.inr ⟨y, (dvd_iff_cast p _).2 (by push_cast; rw [← hx]; ring)⟩
    · rintro (h | ⟨x, hx⟩)
      · exact (ha ((dvd_iff_cast p a).1 h)).elim
      · have := (dvd_iff_cast p _).1 hx
        push_cast at this
        exact ⟨2 * a * x + b, by linear_combination (-4 * (a : ZMod p)) * this⟩

theorem rootsexist1_spec {p : ℕ} (hp : p.Prime) (b c : ℤ) : ∃ e, rootsexist1 b c p = some e ∧
    (e = true ↔ ∃ x : ℤ, (p : ℤ) ∣ x ^ 2 + b * x + c) := by
  obtain ⟨e, h1, h2⟩ := rootsexist_spec hp 1 b c
  refine ⟨e, h1, h2.trans ?_⟩
  have : ¬ (p : ℤ) ∣ 1 := by
    intro h
    have := Int.le_of_dvd one_pos h
    have := hp.two_le
    omega
  simp [this]

/-- `val` against a small bound -/
theorem val_lt {p : ℕ} (hp : p.Prime) (x : ℤ) {n : ℕ} (hn : n ≤ 99999) : val p x < n ↔ ¬ (p : ℤ) ^ n ∣ x := by
  have h2 : (2 : ℤ) ≤ |(p : ℤ)| := by
    rw [abs_of_nonneg (by positivity)]; exact_mod_cast hp.two_le
  by_cases hx : x = 0
  · rw [(Marith.Props.C06_val_big p x).2 (Or.inl hx), hx]
    simp; omega
  · obtain ⟨h1, h3⟩ := (Marith.Props.C06_val_big p x).1 h2 hx
    constructor
    · intro h h'
      exact h3 ((pow_dvd_pow _ h).trans h')
    · intro h
      by_contra hlt
      exact h ((pow_dvd_pow _ (not_lt.1 hlt)).trans h1)

theorem two_half {p : ℕ} (hp : Odd p) : 2 * halfmodp p = p + 1 := by
  obtain ⟨k, rfl⟩ := hp
  unfold halfmodp
  rw [fdiv_eq (b := 2) (c := (k : ℤ) + 1) (by norm_num) (by push_cast; ring)]
  push_cast; ring

/-! ### the working copy -/

/-- the fields of `C` used by the algorithm belong to the equation `W` -/
structure Is (C : Cd) (W : WeierstrassCurve ℤ) : Prop where
  a1 : C.a1 = W.a₁
  a2 : C.a2 = W.a₂
  a3 : C.a3 = W.a₃
  a4 : C.a4 = W.a₄
  a6 : C.a6 = W.a₆
  b2 : C.b2 = W.b₂
  b4 : C.b4 = W.b₄
  b6 : C.b6 = W.b₆
  b8 : C.b8 = W.b₈

theorem Is.transform {C : Cd} {W : WeierstrassCurve ℤ} (h : Is C W) (r s t : ℤ) :
    ∃ V, Chg W V r s t ∧ Is (C.transform r s t) V := by
  refine ⟨_, chg_of W r s t, ?_⟩
  have hc := chg_of W r s t
  generalize (⟨1, r, s, t⟩ : VariableChange ℤ) • W = V at hc
  have e1 : (C.transform r s t).a1 = V.a₁ := by simp only [Cd.transform, hc.a1, h.a1]; ring
  have e2 : (C.transform r s t).a2 = V.a₂ := by simp only [Cd.transform, hc.a2, h.a1, h.a2]; ring
  have e3 : (C.transform r s t).a3 = V.a₃ := by simp only [Cd.transform, hc.a3, h.a1, h.a3]; ring
  have e4 : (C.transform r s t).a4 = V.a₄ := by
    simp only [Cd.transform, hc.a4, h.a1, h.a2, h.a3, h.a4]; ring
  have e6 : (C.transform r s t).a6 = V.a₆ := by
    simp only [Cd.transform, hc.a6, h.a1, h.a2, h.a3, h.a4, h.a6]; ring
  have f2 : (C.transform r s t).b2 = (C.transform r s t).a1 * (C.transform r s t).a1
    + 4 * (C.transform r s t).a2 := rfl
  have f4 : (C.transform r s t).b4 = (C.transform r s t).a4 + (C.transform r s t).a4
    + (C.transform r s t).a1 * (C.transform r s t).a3 := rfl
  have f6 : (C.transform r s t).b6 = (C.transform r s t).a3 * (C.transform r s t).a3
    + 4 * (C.transform r s t).a6 := rfl
  have f8 : (C.transform r s t).b8 = ((C.transform r s t).b2 * (C.transform r s t).b6
    - (C.transform r s t).b4 * (C.transform r s t).b4).fdiv 4 := rfl
  have g2 : (C.transform r s t).b2 = V.b₂ := by rw [f2, e1, e2]; unfold b₂; ring
  have g4 : (C.transform r s t).b4 = V.b₄ := by rw [f4, e1, e3, e4]; unfold b₄; ring
  have g6 : (C.transform r s t).b6 = V.b₆ := by rw [f6, e3, e6]; unfold b₆; ring
  have g8 : (C.transform r s t).b8 = V.b₈ := by
    rw [f8, g2, g4, g6]
    exact fdiv_eq (by norm_num) (by rw [V.b_relation]; ring)
  exact ⟨e1, e2, e3, e4, e6, g2, g4, g6, g8⟩

/-! ### the first change of coordinates -/

theorem two_ne {p : ℕ} (hp : p.Prime) (h2 : p ≠ 2) : (2 : ZMod p) ≠ 0 := by
  intro h
  have : ((2 : ℕ) : ZMod p) = 0 := by exact_mod_cast h
  rw [ZMod.natCast_eq_zero_iff] at this
  exact h2 ((Nat.prime_dvd_prime_iff_eq hp Nat.prime_two).1 this)

theorem three_ne {p : ℕ} (hp : p.Prime) (h3 : p ≠ 3) : (3 : ZMod p) ≠ 0 := by
  intro h
  have : ((3 : ℕ) : ZMod p) = 0 := by exact_mod_cast h
  rw [ZMod.natCast_eq_zero_iff] at this
  exact h3 ((Nat.prime_dvd_prime_iff_eq hp Nat.prime_three).1 this)

theorem first_two (a1 a2 a3 a4 a6 : ZMod 2)
    (hD : -(a1 ^ 2 + 4 * a2) ^ 2 * (a1 ^ 2 * a6 + 4 * a2 * a6 - a1 * a3 * a4 + a2 * a3 ^ 2 - a4 ^ 2)
      - 8 * (2 * a4 + a1 * a3) ^ 3 - 27 * (a3 ^ 2 + 4 * a6) ^ 2
      + 9 * (a1 ^ 2 + 4 * a2) * (2 * a4 + a1 * a3) * (a3 ^ 2 + 4 * a6) = 0) (r t : ZMod 2)
    (h : (a1 = 0 ∧ r = a4 ∧ t = ((r + a2) * r + a4) * r + a6) ∨ (a1 ≠ 0 ∧ r = a1⁻¹ * a3 ∧ t = a1⁻¹ * (a4 + r * r))) :
    a3 + r * a1 + 2 * t = 0 ∧ a4 + 2 * r * a2 - t * a1 + 3 * r ^ 2 = 0 ∧
    a6 + r * a4 + r ^ 2 * a2 + r ^ 3 - t * a3 - t ^ 2 - r * t * a1 = 0 := by
  revert a1 a2 a3 a4 a6 r t
  decide +kernel

theorem first_three (a1 a2 a3 a4 a6 : ZMod 3)
    (hD : -(a1 ^ 2 + 4 * a2) ^ 2 * (a1 ^ 2 * a6 + 4 * a2 * a6 - a1 * a3 * a4 + a2 * a3 ^ 2 - a4 ^ 2)
      - 8 * (2 * a4 + a1 * a3) ^ 3 - 27 * (a3 ^ 2 + 4 * a6) ^ 2
      + 9 * (a1 ^ 2 + 4 * a2) * (2 * a4 + a1 * a3) * (a3 ^ 2 + 4 * a6) = 0) (r : ZMod 3)
    (h : (a1 ^ 2 + 4 * a2 = 0 ∧ r = -(a3 ^ 2 + 4 * a6)) ∨
      (a1 ^ 2 + 4 * a2 ≠ 0 ∧ r = -(a1 ^ 2 + 4 * a2)⁻¹ * (2 * a4 + a1 * a3))) :
    a3 + r * a1 + 2 * (a1 * r + a3) = 0 ∧ a4 + 2 * r * a2 - (a1 * r + a3) * a1 + 3 * r ^ 2 = 0 ∧
    a6 + r * a4 + r ^ 2 * a2 + r ^ 3 - (a1 * r + a3) * a3 - (a1 * r + a3) ^ 2 - r * (a1 * r + a3) * a1 = 0 := by
  revert a1 a2 a3 a4 a6 r
  decide +kernel

/-- over a field of characteristic at least 5: the invariants of the moved equation -/
theorem first_field {K : Type*} [Field K] (h2 : (2 : K) ≠ 0) (h3 : (3 : K) ≠ 0) {b2 b4 b6 c4 c6 : K}
    (e4 : c4 = b2 ^ 2 - 24 * b4) (e6 : c6 = -b2 ^ 3 + 36 * b2 * b4 - 216 * b6) (hD : c4 ^ 3 = c6 ^ 2)
    (h : (c4 = 0 ∧ b2 = 0) ∨ (c4 ≠ 0 ∧ c4 * b2 = -c6)) : b4 = 0 ∧ b6 = 0 := by
  have h24 : (24 : K) ≠ 0 := by
    rw [show (24 : K) = 2 ^ 3 * 3 by norm_num]; exact mul_ne_zero (pow_ne_zero _ h2) h3
  have h216 : (216 : K) ≠ 0 := by
    rw [show (216 : K) = 2 ^ 3 * 3 ^ 3 by norm_num]
    exact mul_ne_zero (pow_ne_zero _ h2) (pow_ne_zero _ h3)
  rcases h with ⟨h0, hb⟩ | ⟨h0, hb⟩
  · have h4 : b4 = 0 := by
      have : 24 * b4 = 0 := by rw [hb] at e4; linear_combination e4 - h0
      exact (mul_eq_zero.1 this).resolve_left h24
    have hc : c6 = 0 := by
      have : c6 ^ 2 = 0 := by rw [← hD, h0]; ring
      exact pow_eq_zero_iff (two_ne_zero) |>.1 this
    refine ⟨h4, ?_⟩
    have : 216 * b6 = 0 := by rw [hb, h4] at e6; linear_combination e6 - hc
    exact (mul_eq_zero.1 this).resolve_left h216
  · have hsq : b2 ^ 2 = c4 := by
      have : c4 ^ 2 * (b2 ^ 2 - c4) = 0 := by linear_combination (c4 * b2 - c6) * hb - hD
      exact sub_eq_zero.1 ((mul_eq_zero.1 this).resolve_left (pow_ne_zero 2 h0))
    have h4 : b4 = 0 := by
      have : 24 * b4 = 0 := by linear_combination e4 + hsq
      exact (mul_eq_zero.1 this).resolve_left h24
    refine ⟨h4, ?_⟩
    have : 216 * b6 = 0 := by rw [h4] at e6; linear_combination e6 - hb - b2 * hsq
    exact (mul_eq_zero.1 this).resolve_left h216

/-- after the first change of coordinates the singular point is at the origin -/
theorem first_spec (L : Lib) {p : ℕ} (hp : p.Prime) {C : Cd} {W V : WeierstrassCurve ℤ} (hC : Is C W)
    (hD : (p : ℤ) ∣ W.Δ)
    (hV : Chg W V (mod (first L W.c₄ W.c₆ p C).1 p) 0 (mod (first L W.c₄ W.c₆ p C).2 p)) : Lev1 p V := by
  have hF := Fact.mk hp
  generalize hr : (first L W.c₄ W.c₆ p C).1 = r at hV
  generalize ht : (first L W.c₄ W.c₆ p C).2 = t at hV
  have cr := smod_cast hp.ne_zero r
  have ct := smod_cast hp.ne_zero t
  generalize mod r p = r' at hV cr
  generalize mod t p = t' at hV ct
  unfold first at hr ht
  have hp0 : (p : ℤ) ≠ 0 := by exact_mod_cast hp.ne_zero
  have hDc := (dvd_iff_cast p _).1 hD
  suffices hs : ((V.a₃ : ℤ) : ZMod p) = 0 ∧ ((V.a₄ : ℤ) : ZMod p) = 0 ∧ ((V.a₆ : ℤ) : ZMod p) = 0 from
    ⟨(dvd_iff_cast p _).2 hs.1, (dvd_iff_cast p _).2 hs.2.1, (dvd_iff_cast p _).2 hs.2.2⟩
  by_cases h2 : p = 2
  · subst h2
    have h20 : ((2 : ℕ) : ℤ) % 2 = 0 := rfl
    rw [if_pos h20] at hr ht
    unfold Δ b₂ b₄ b₆ b₈ at hDc
    push_cast at hDc
    have key := first_two _ _ _ _ _ hDc (r : ZMod 2) (t : ZMod 2) ?_
    · rw [hV.a3, hV.a4, hV.a6]
      push_cast
      rw [cr, ct]
      refine ⟨?_, ?_, ?_⟩
      · exact key.1
      · linear_combination key.2.1
      · exact key.2.2
    · have hb2 : ((W.b₂ : ℤ) : ZMod 2) = 0 ↔ ((W.a₁ : ℤ) : ZMod 2) = 0 := by
        unfold b₂
        push_cast
        exact b2_two _ _
      by_cases hb : div ((2 : ℕ) : ℤ) C.b2 = true
      · rw [if_pos hb] at hr ht
        rw [div_iff' (by norm_num), hC.b2, dvd_iff_cast, hb2] at hb
        refine Or.inl ⟨hb, ?_, ?_⟩
        · rw [← hr, ← hC.a4]; exact root2_cast L _
        · rw [← ht]
          refine (root2_cast L _).trans ?_
          push_cast
          rw [show (root L C.a4 2 2) = r from hr, hC.a2, hC.a4, hC.a6]
      · rw [if_neg hb] at hr ht
        rw [div_iff' (by norm_num), hC.b2, dvd_iff_cast, hb2] at hb
        have hi : ((invmod L.xg C.a1 ((2 : ℕ) : ℤ) : ℤ) : ZMod 2) = ((W.a₁ : ℤ) : ZMod 2)⁻¹ := by
          rw [hC.a1]; exact invmod_cast L.xg hb
        push_cast at hi
        refine Or.inr ⟨hb, ?_, ?_⟩
        · rw [← hr]; push_cast; rw [hi, hC.a3]
        · rw [← ht]; push_cast; rw [hi, hC.a4, ← hr]; push_cast; rw [hi, hC.a3]
  · have h20 : ¬ (p : ℤ) % 2 = 0 := fun h => h2 ((prime_even hp).1 h)
    rw [if_neg h20] at hr ht
    by_cases h3 : p = 3
    · subst h3
      have h30 : ((3 : ℕ) : ℤ) = 3 := rfl
      rw [if_pos h30] at hr ht
      simp only at hr ht
      unfold Δ b₂ b₄ b₆ b₈ at hDc
      push_cast at hDc
      have et : (t : ZMod 3) = W.a₁ * r + W.a₃ := by
        rw [← ht, hr]; push_cast; rw [hC.a1, hC.a3]
      have key := first_three _ _ _ _ _ hDc (r : ZMod 3) ?_
      · rw [hV.a3, hV.a4, hV.a6]
        push_cast
        rw [cr, ct, et]
        refine ⟨?_, ?_, ?_⟩
        · exact key.1
        · linear_combination key.2.1
        · exact key.2.2
      · by_cases hb : div ((3 : ℕ) : ℤ) C.b2 = true
        · rw [if_pos hb] at hr
          rw [div_iff' (by norm_num), hC.b2, dvd_iff_cast] at hb
          refine Or.inl ⟨by unfold b₂ at hb; push_cast at hb; exact hb, ?_⟩
          rw [← hr]
          refine (root3_cast L _).trans ?_
          rw [hC.b6]; unfold b₆; push_cast; ring
        · rw [if_neg hb] at hr
          rw [div_iff' (by norm_num), hC.b2, dvd_iff_cast] at hb
          refine Or.inr ⟨by unfold b₂ at hb; push_cast at hb; exact hb, ?_⟩
          rw [← hr]
          push_cast
          rw [hC.b2, hC.b4]
          have := invmod_cast L.xg hb
          rw [show ((3 : ℕ) : ℤ) = 3 from rfl] at this
          rw [this]
          unfold b₂ b₄; push_cast; ring
    · have h30 : ¬ (p : ℤ) = 3 := by exact_mod_cast h3
      rw [if_neg h30] at hr ht
      simp only at hr ht
      have n2 := two_ne hp h2
      have n3 := three_ne hp h3
      have n12 : (12 : ZMod p) ≠ 0 := by
        rw [show (12 : ZMod p) = 2 ^ 2 * 3 by norm_num]; exact mul_ne_zero (pow_ne_zero _ n2) n3
      have hodd : Odd p := by
        rcases hp.eq_two_or_odd' with h | h
        · exact (h2 h).elim
        · exact h
      have hh : (2 : ZMod p) * (halfmodp p : ℤ) = 1 := by
        have := congrArg (fun z : ℤ => (z : ZMod p)) (two_half hodd)
        push_cast at this
        simpa using this
      have et : 2 * (t : ZMod p) = -(W.a₁ * r + W.a₃) := by
        rw [← ht, hr]; push_cast; rw [hC.a1, hC.a3]
        linear_combination (-((W.a₁ : ZMod p) * r + W.a₃)) * hh
      have eb2 : ((V.b₂ : ℤ) : ZMod p) = W.b₂ + 12 * r := by
        rw [hV.b2]; push_cast; rw [cr]
      have e3 : ((V.a₃ : ℤ) : ZMod p) = 0 := by
        rw [hV.a3]; push_cast; rw [cr, ct]; linear_combination et
      have e4 : ((V.c₄ : ℤ) : ZMod p) = (V.b₂ : ZMod p) ^ 2 - 24 * (V.b₄ : ℤ) := by
        unfold c₄; push_cast; rfl
      have e6 : ((V.c₆ : ℤ) : ZMod p) = -(V.b₂ : ZMod p) ^ 3 + 36 * (V.b₂ : ℤ) * (V.b₄ : ℤ) - 216 * (V.b₆ : ℤ) := by
        unfold c₆; push_cast; rfl
      have hDV : ((V.c₄ : ℤ) : ZMod p) ^ 3 = ((V.c₆ : ℤ) : ZMod p) ^ 2 := by
        have h := V.c_relation
        have h' := congrArg (fun z : ℤ => (z : ZMod p)) h
        push_cast at h'
        rw [hV.disc, hDc] at h'
        linear_combination -h'
      have hcase : (((V.c₄ : ℤ) : ZMod p) = 0 ∧ ((V.b₂ : ℤ) : ZMod p) = 0) ∨
          (((V.c₄ : ℤ) : ZMod p) ≠ 0 ∧ ((V.c₄ : ℤ) : ZMod p) * ((V.b₂ : ℤ) : ZMod p) = -((V.c₆ : ℤ) : ZMod p)) := by
        rw [hV.c4, hV.c6, eb2]
        by_cases hc : div (p : ℤ) W.c₄ = true
        · rw [if_pos hc] at hr
          rw [div_iff' hp0, dvd_iff_cast] at hc
          refine Or.inl ⟨hc, ?_⟩
          have hi : ((invmod L.xg 12 p : ℤ) : ZMod p) = ((12 : ℤ) : ZMod p)⁻¹ :=
            invmod_cast L.xg (by push_cast; exact n12)
          rw [← hr]; push_cast at hi ⊢; rw [hi, hC.b2]
          field_simp
          ring
        · rw [if_neg hc] at hr
          rw [div_iff' hp0, dvd_iff_cast] at hc
          refine Or.inr ⟨hc, ?_⟩
          have hi : ((invmod L.xg (12 * W.c₄) p : ℤ) : ZMod p) = ((12 * W.c₄ : ℤ) : ZMod p)⁻¹ :=
            invmod_cast L.xg (by push_cast; exact mul_ne_zero n12 hc)
          rw [← hr]; push_cast at hi ⊢; rw [hi, hC.b2]
          field_simp
          ring
      obtain ⟨k4, k6⟩ := first_field n2 n3 e4 e6 hDV hcase
      have q4 : 2 * ((V.a₄ : ℤ) : ZMod p) = 0 := by
        unfold b₄ at k4; push_cast at k4; rw [e3] at k4; linear_combination k4
      have q6 : 2 ^ 2 * ((V.a₆ : ℤ) : ZMod p) = 0 := by
        unfold b₆ at k6; push_cast at k6; rw [e3] at k6; linear_combination k6
      exact ⟨e3, (mul_eq_zero.1 q4).resolve_left n2, (mul_eq_zero.1 q6).resolve_left (pow_ne_zero 2 n2)⟩

end Eclib.Tate
