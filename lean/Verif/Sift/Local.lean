import Verif.Sift.Delta
import Verif.Curve.NagellLutz
import Verif.Local.HilbertLocal
import Mathlib.NumberTheory.LegendreSymbol.QuadraticChar.Basic

/-!
# The characters of `E(ℚ)` computed by the sifter

Let `p ≥ 5` be a prime of good reduction and `θ` a root modulo `p` of `X³ - 27c₄X - 54c₆`.
-/

namespace Eclib.Sift

open WeierstrassCurve Polynomial Eclib.Curve

variable {p : ℕ} [hp : Fact p.Prime]

noncomputable instance : DecidableEq ℚ_[p] := Classical.decEq _

/-! ## Squares -/

theorem norm_lt_iff {x : ℤ_[p]} : ‖x‖ < 1 ↔ PadicInt.toZMod x = 0 := by
  rw [PadicInt.norm_lt_one_iff_dvd, Eclib.Local.toZMod_eq_zero_iff]
  exact Iff.rfl

theorem norm_eq_one {x : ℤ_[p]} (h : PadicInt.toZMod x ≠ 0) : ‖x‖ = 1 := by
  rcases (PadicInt.norm_le_one x).lt_or_eq with h1 | h1
  · exact absurd (norm_lt_iff.1 h1) h
  · exact h1

/-- congruent units differ by a square -/
theorem mul_square (hp2 : p ≠ 2) {u v : ℤ_[p]} (hu : PadicInt.toZMod u ≠ 0) (huv : PadicInt.toZMod u = PadicInt.toZMod v) :
    ∃ s : ℤ_[p], s * s = u * v := by
  have h2 : PadicInt.toZMod (2 : ℤ_[p]) ≠ 0 := by
    rw [show (2 : ℤ_[p]) = ((2 : ℕ) : ℤ_[p]) by norm_num, map_natCast, Ne, ZMod.natCast_eq_zero_iff]
    intro h
    exact hp2 ((Nat.prime_dvd_prime_iff_eq hp.out Nat.prime_two).1 h)
  have hder : ‖(derivative (X ^ 2 - C (u * v) : ℤ_[p][X])).aeval u‖ = 1 := by
    have : (derivative (X ^ 2 - C (u * v) : ℤ_[p][X])).aeval u = 2 * u := by
      simp only [derivative_X_pow, map_sub, map_mul, map_pow, aeval_X, aeval_C,
        Algebra.algebraMap_self, RingHom.id_apply]
      norm_num
    rw [this]
    apply norm_eq_one
    rw [map_mul]
    exact mul_ne_zero h2 hu
  have hval : ‖(X ^ 2 - C (u * v) : ℤ_[p][X]).aeval u‖ < 1 := by
    rw [norm_lt_iff]
    simp [huv, sq]
  obtain ⟨s, hs, _⟩ := hensels_lemma (p := p) (F := (X ^ 2 - C (u * v) : ℤ_[p][X])) (a := u) (by rw [hder]; simpa using hval)
  refine ⟨s, ?_⟩
  simp only [map_sub, map_pow, aeval_X, aeval_C, Algebra.algebraMap_self, RingHom.id_apply] at hs
  linear_combination hs

theorem isSquare_int (hp2 : p ≠ 2) {u : ℤ} (hu : (u : ZMod p) ≠ 0) : IsSquare (u : ℚ_[p]) ↔ IsSquare (u : ZMod p) := by
  constructor
  · rintro ⟨z, hz⟩
    have hn : ‖(u : ℚ_[p])‖ ≤ 1 := Padic.norm_int_le_one u
    have hz1 : ‖z‖ ≤ 1 := by
      rw [hz, norm_mul] at hn
      by_contra h
      push Not at h
      nlinarith
    obtain ⟨w, rfl⟩ : ∃ w : ℤ_[p], (w : ℚ_[p]) = z := ⟨⟨z, hz1⟩, rfl⟩
    refine Eclib.Local.isSquare_of_padic (z := w) (PadicInt.ext ?_)
    push_cast
    rw [hz, sq]
  · intro h
    obtain ⟨z, hz⟩ := Eclib.Local.padic_of_isSquare hp2 (by rwa [Ne, ZMod.intCast_zmod_eq_zero_iff_dvd] at hu) h
    refine ⟨(z : ℚ_[p]), ?_⟩
    have := congrArg (fun t : ℤ_[p] => (t : ℚ_[p])) hz
    push_cast at this
    rw [← this, sq]

/-! ## The curve over `ℚ_p` and the root -/

/-- the number whose quadratic character is computed by the sifter -/
def sval (c4 : ℤ) (p : ℕ) (θ x z2 : ℤ) : ℤ := if (p : ℤ) ∣ x - θ * z2 then 3 * x ^ 2 - 27 * c4 * z2 ^ 2 else x - θ * z2

/-- the curve over `ℚ_p` -/
noncomputable def Ep (p : ℕ) [Fact p.Prime] (E : Cv) : WeierstrassCurve ℚ_[p] := E.Q.baseChange ℚ_[p]

/-- the points over `ℚ_p` -/
noncomputable def toP (p : ℕ) [Fact p.Prime] (E : Cv) : E.Pt →+ (Ep p E).toAffine.Point :=
  Affine.Point.map (W' := E.Q) (Algebra.ofId ℚ ℚ_[p])

theorem toP_some (E : Cv) {x y : ℚ} (h : E.Q.toAffine.Nonsingular x y) :
    ∃ h', toP p E (.some x y h) = .some (x : ℚ_[p]) (y : ℚ_[p]) h' := by
  exact ⟨_, rfl⟩

theorem Ep_eq (E : Cv) : Ep p E = E.W.map (Int.castRingHom ℚ_[p]) := by
  simp [Ep, Cv.Q, Cv.W, WeierstrassCurve.baseChange, WeierstrassCurve.map]

theorem not_dvd_mul {a b : ℤ} (ha : (a : ZMod p) ≠ 0) (hb : (b : ZMod p) ≠ 0) : ((a * b : ℤ) : ZMod p) ≠ 0 := by
  push_cast
  exact mul_ne_zero ha hb

theorem small_ne (h5 : 5 ≤ p) : (2 : ZMod p) ≠ 0 ∧ (3 : ZMod p) ≠ 0 := by
  constructor
  · rw [show (2 : ZMod p) = ((2 : ℕ) : ZMod p) by norm_num, Ne, ZMod.natCast_eq_zero_iff]
    intro h
    have := Nat.le_of_dvd (by norm_num) h
    omega
  · rw [show (3 : ZMod p) = ((3 : ℕ) : ZMod p) by norm_num, Ne, ZMod.natCast_eq_zero_iff]
    intro h
    have := Nat.le_of_dvd (by norm_num) h
    omega

/-- a root of the cubic modulo a good prime `p ≥ 5` is simple -/
theorem root_simple (h5 : 5 ≤ p) (E : Cv) (hΔ : ¬ (p : ℤ) ∣ E.W.Δ) {θ : ZMod p}
    (hθ : θ ^ 3 - 27 * (E.W.c₄ : ZMod p) * θ - 54 * (E.W.c₆ : ZMod p) = 0) : 3 * θ ^ 2 - 27 * (E.W.c₄ : ZMod p) ≠ 0 := by
  intro h
  obtain ⟨h2, h3⟩ := small_ne h5
  have hD : (E.W.Δ : ZMod p) ≠ 0 := by rwa [Ne, ZMod.intCast_zmod_eq_zero_iff_dvd]
  have hc := congrArg (fun t : ℤ => (t : ZMod p)) E.W.c_relation
  push_cast at hc
  have : (2 : ZMod p) ^ 8 * 3 ^ 12 * (E.W.Δ : ZMod p) = 0 := by
    linear_combination (2 : ZMod p) ^ 2 * 3 ^ 9 * hc
      - ((-18) * (-27 * (E.W.c₄ : ZMod p)) * θ + 27 * (-54 * (E.W.c₆ : ZMod p))) * hθ
      - (6 * (-27 * (E.W.c₄ : ZMod p)) * θ ^ 2 - 9 * (-54 * (E.W.c₆ : ZMod p)) * θ + 4 * (-27 * (E.W.c₄ : ZMod p)) ^ 2) * h
  exact mul_ne_zero (mul_ne_zero (pow_ne_zero _ h2) (pow_ne_zero _ h3)) hD this

theorem root_lift (h5 : 5 ≤ p) (E : Cv) (hΔ : ¬ (p : ℤ) ∣ E.W.Δ) {θ : ℤ}
    (hθ : (p : ℤ) ∣ θ ^ 3 - 27 * E.W.c₄ * θ - 54 * E.W.c₆) :
    ∃ Θ : ℤ_[p], Θ ^ 3 - 27 * (E.W.c₄ : ℤ_[p]) * Θ - 54 * (E.W.c₆ : ℤ_[p]) = 0 ∧ PadicInt.toZMod Θ = (θ : ZMod p) := by
  have hθ' : (θ : ZMod p) ^ 3 - 27 * (E.W.c₄ : ZMod p) * θ - 54 * (E.W.c₆ : ZMod p) = 0 := by
    have := (ZMod.intCast_zmod_eq_zero_iff_dvd _ p).2 hθ
    push_cast at this
    exact this
  have z3 : PadicInt.toZMod (3 : ℤ_[p]) = 3 := map_ofNat _ 3
  have z27 : PadicInt.toZMod (27 : ℤ_[p]) = 27 := map_ofNat _ 27
  have z54 : PadicInt.toZMod (54 : ℤ_[p]) = 54 := map_ofNat _ 54
  set F : ℤ_[p][X] := X ^ 3 - C (27 * (E.W.c₄ : ℤ_[p])) * X - C (54 * (E.W.c₆ : ℤ_[p])) with hF
  have hv (a : ℤ_[p]) : F.aeval a = a ^ 3 - 27 * (E.W.c₄ : ℤ_[p]) * a - 54 * (E.W.c₆ : ℤ_[p]) := by
    simp only [hF, map_sub, map_pow, map_mul, aeval_X, aeval_C, Algebra.algebraMap_self, RingHom.id_apply]
  have hd (a : ℤ_[p]) : (derivative F).aeval a = 3 * a ^ 2 - 27 * (E.W.c₄ : ℤ_[p]) := by
    simp only [hF, derivative_X_pow, derivative_C, derivative_mul, derivative_X, map_sub, map_add, map_mul,
      map_zero, map_pow, map_one, aeval_X, aeval_C, Algebra.algebraMap_self, RingHom.id_apply]
    norm_num
  have hder : ‖(derivative F).aeval (θ : ℤ_[p])‖ = 1 := by
    apply norm_eq_one
    rw [hd, map_sub, map_mul, map_mul, map_pow, map_intCast, map_intCast, z3, z27]
    exact root_simple h5 E hΔ hθ'
  have hval : ‖F.aeval (θ : ℤ_[p])‖ < 1 := by
    rw [norm_lt_iff, hv, map_sub, map_sub, map_mul, map_mul, map_mul, map_pow, map_intCast, map_intCast, map_intCast, z27, z54]
    exact hθ'
  obtain ⟨Θ, h1, h2, _⟩ := hensels_lemma (p := p) (F := F) (a := (θ : ℤ_[p])) (by rw [hder]; simpa using hval)
  refine ⟨Θ, by rw [← hv]; exact h1, ?_⟩
  rw [hder, norm_lt_iff, map_sub, sub_eq_zero] at h2
  simpa using h2

/-- the root of `4X³ + b₂X² + 2b₄X + b₆` -/
noncomputable def rt (E : Cv) (Θ : ℤ_[p]) : ℚ_[p] := ((Θ : ℚ_[p]) - 3 * (E.W.b₂ : ℚ_[p])) / 36

theorem g2_scale (E : Cv) (x : ℚ_[p]) : 11664 * g2 (Ep p E) x = (36 * x + 3 * (E.W.b₂ : ℚ_[p])) ^ 3
    - 27 * (E.W.c₄ : ℚ_[p]) * (36 * x + 3 * (E.W.b₂ : ℚ_[p])) - 54 * (E.W.c₆ : ℚ_[p]) := by
  simp only [g2, Ep_eq, map_b₂, map_b₄, map_b₆, eq_intCast, WeierstrassCurve.c₄, WeierstrassCurve.c₆]
  push_cast
  ring

theorem g2'_scale (E : Cv) (x : ℚ_[p]) : 324 * g2' (Ep p E) x = 3 * (36 * x + 3 * (E.W.b₂ : ℚ_[p])) ^ 2
    - 27 * (E.W.c₄ : ℚ_[p]) := by
  simp only [g2', Ep_eq, map_b₂, map_b₄, eq_intCast, WeierstrassCurve.c₄]
  push_cast
  ring

theorem coe_root (E : Cv) {Θ : ℤ_[p]} (hΘ : Θ ^ 3 - 27 * (E.W.c₄ : ℤ_[p]) * Θ - 54 * (E.W.c₆ : ℤ_[p]) = 0) :
    (Θ : ℚ_[p]) ^ 3 - 27 * (E.W.c₄ : ℚ_[p]) * (Θ : ℚ_[p]) - 54 * (E.W.c₆ : ℚ_[p]) = 0 := by
  have h := congrArg (PadicInt.Coe.ringHom (p := p)) hΘ
  rw [map_sub, map_sub, map_mul, map_mul, map_mul, map_pow, map_intCast, map_intCast, map_zero, map_ofNat, map_ofNat] at h
  exact h

theorem g2_rt (E : Cv) {Θ : ℤ_[p]} (hΘ : Θ ^ 3 - 27 * (E.W.c₄ : ℤ_[p]) * Θ - 54 * (E.W.c₆ : ℤ_[p]) = 0) :
    g2 (Ep p E) (rt E Θ) = 0 := by
  have h := g2_scale E (rt E Θ)
  have e : 36 * rt E Θ + 3 * (E.W.b₂ : ℚ_[p]) = Θ := by
    unfold rt
    ring
  rw [e] at h
  rw [coe_root E hΘ] at h
  exact (mul_eq_zero.1 h).resolve_left (by norm_num)

end Eclib.Sift
