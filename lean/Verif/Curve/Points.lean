import Mathlib.AlgebraicGeometry.EllipticCurve.Affine.Point
import Mathlib.Tactic.LinearCombination
import Verif.Curve.Proj

/-!
# C31, C32: point arithmetic is the group law

The specification is Mathlib's group `WeierstrassCurve.Affine.Point` over the rationals.
-/

namespace Eclib.Curve

open WeierstrassCurve

/-- the curve over the rationals -/
def Cv.Q (E : Cv) : WeierstrassCurve ℚ := ⟨E.a1, E.a2, E.a3, E.a4, E.a6⟩

theorem Cv.Q_eq (E : Cv) : E.Q = E.W.map (Int.castRingHom ℚ) := by
  simp [Cv.Q, Cv.W, WeierstrassCurve.map]

theorem Cv.Q_disc {E : Cv} (h : E.W.Δ ≠ 0) : E.Q.Δ ≠ 0 := by
  rw [Cv.Q_eq, map_Δ]
  simpa using h

/-- the rational points -/
abbrev Cv.Pt (E : Cv) : Type := E.Q.toAffine.Point

/-- the triple `P` represents the point `A`: `A` is the origin and `P = (0:Y:0)`, or `A` has the
affine coordinates `(X/Z, Y/Z)` -/
def Rep (E : Cv) (P : P2) : E.Pt → Prop
  | .zero => P.X = 0 ∧ P.Y ≠ 0 ∧ P.Z = 0
  | .some x y _ => P.Z ≠ 0 ∧ (P.X : ℚ) = x * P.Z ∧ (P.Y : ℚ) = y * P.Z

theorem Rep.zero_iff {E : Cv} {P : P2} : Rep E P 0 ↔ P.X = 0 ∧ P.Y ≠ 0 ∧ P.Z = 0 := Iff.rfl

theorem Rep.some_iff {E : Cv} {P : P2} {x y : ℚ} {h : E.Q.toAffine.Nonsingular x y} :
    Rep E P (.some x y h) ↔ P.Z ≠ 0 ∧ (P.X : ℚ) = x * P.Z ∧ (P.Y : ℚ) = y * P.Z := Iff.rfl

theorem Rep.nz {E : Cv} {P : P2} {A : E.Pt} (h : Rep E P A) : P2.NZ P := by
  match A, h with
  | .zero, h => exact Or.inr (Or.inl h.2.1)
  | .some x y _, h => exact Or.inr (Or.inr h.1)

/-- the equation in affine form -/
theorem eqn {E : Cv} {x y : ℚ} (h : E.Q.toAffine.Nonsingular x y) :
    y ^ 2 + E.a1 * x * y + E.a3 * y = x ^ 3 + E.a2 * x ^ 2 + E.a4 * x + E.a6 :=
  (Affine.equation_iff x y).1 h.1

theorem Rep.valid {E : Cv} {P : P2} {A : E.Pt} (h : Rep E P A) : P2.isvalid E P = true := by
  rw [P2.isvalid_iff]
  refine ⟨h.nz, ?_⟩
  match A, h with
  | .zero, h =>
    unfold P2.OnE
    rw [h.1, h.2.2]; ring
  | .some x y hns, h =>
    unfold P2.OnE
    have e := eqn hns
    obtain ⟨-, h1, h2⟩ := h
    have : ((P.Y ^ 2 * P.Z + E.a1 * P.X * P.Y * P.Z + E.a3 * P.Y * P.Z ^ 2 : ℤ) : ℚ) =
      ((P.X ^ 3 + E.a2 * P.X ^ 2 * P.Z + E.a4 * P.X * P.Z ^ 2 + E.a6 * P.Z ^ 3 : ℤ) : ℚ) := by
      push_cast
      rw [h1, h2]
      linear_combination (P.Z : ℚ) ^ 3 * e
    exact_mod_cast this

/-- every valid triple represents a unique point -/
theorem rep_exists {E : Cv} (hE : E.W.Δ ≠ 0) {P : P2} (h : P2.isvalid E P = true) :
    ∃ A, Rep E P A := by
  rw [P2.isvalid_iff] at h
  obtain ⟨hnz, hon⟩ := h
  unfold P2.OnE at hon
  by_cases hz : P.Z = 0
  · have hx : P.X = 0 := by
      rw [hz] at hon
      have : P.X ^ 3 = 0 := by linear_combination -hon
      exact pow_eq_zero_iff (by norm_num) |>.1 this
    refine ⟨0, hx, ?_, hz⟩
    rcases hnz with h | h | h
    · exact absurd hx h
    · exact h
    · exact absurd hz h
  · have hz' : (P.Z : ℚ) ≠ 0 := by exact_mod_cast hz
    have hon' : (P.Y ^ 2 * P.Z + E.a1 * P.X * P.Y * P.Z + E.a3 * P.Y * P.Z ^ 2 : ℚ) =
        (P.X ^ 3 + E.a2 * P.X ^ 2 * P.Z + E.a4 * P.X * P.Z ^ 2 + E.a6 * P.Z ^ 3 : ℚ) := by
      exact_mod_cast hon
    have heq : E.Q.toAffine.Equation (P.X / P.Z : ℚ) (P.Y / P.Z : ℚ) := by
      rw [Affine.equation_iff]
      simp only [Cv.Q]
      field_simp
      linear_combination hon'
    refine ⟨.some _ _ ((Affine.equation_iff_nonsingular_of_Δ_ne_zero (Cv.Q_disc hE)).1 heq), hz, ?_, ?_⟩
    · field_simp
    · field_simp

theorem Rep.same {E : Cv} {P Q : P2} {A B : E.Pt} (hP : Rep E P A) (hQ : Rep E Q B) :
    P2.Same P Q ↔ A = B := by
  rw [← P2.cross_iff hP.nz hQ.nz]
  match A, B, hP, hQ with
  | .zero, .zero, hP, hQ =>
    simp only [iff_true]
    rw [hP.1, hP.2.2, hQ.1, hQ.2.2]
    simp
  | .zero, .some x y h, hP, hQ =>
    simp only [reduceCtorEq, iff_false]
    rintro ⟨-, h2, -⟩
    rw [hP.2.2, zero_mul] at h2
    exact mul_ne_zero hP.2.1 hQ.1 h2
  | .some x y h, .zero, hP, hQ =>
    simp only [reduceCtorEq, iff_false]
    rintro ⟨-, h2, -⟩
    rw [hQ.2.2, mul_zero] at h2
    exact mul_ne_zero hP.1 hQ.2.1 h2.symm
  | .some x y h, .some x' y' h', hP, hQ =>
    obtain ⟨hz, h1, h2⟩ := hP
    obtain ⟨hz', h1', h2'⟩ := hQ
    have z : (P.Z : ℚ) ≠ 0 := by exact_mod_cast hz
    have z' : (Q.Z : ℚ) ≠ 0 := by exact_mod_cast hz'
    simp only [Affine.Point.some.injEq]
    constructor
    · rintro ⟨e1, e2, -⟩
      have e1 : (P.X : ℚ) * Q.Z = P.Z * Q.X := by exact_mod_cast e1
      have e2 : (P.Y : ℚ) * Q.Z = P.Z * Q.Y := by exact_mod_cast e2
      rw [h1, h1'] at e1
      rw [h2, h2'] at e2
      have zz : (P.Z : ℚ) * Q.Z ≠ 0 := mul_ne_zero z z'
      exact ⟨mul_left_cancel₀ zz (by linear_combination e1),
        mul_left_cancel₀ zz (by linear_combination e2)⟩
    · rintro ⟨rfl, rfl⟩
      refine ⟨?_, ?_, ?_⟩
      · have : (P.X : ℚ) * Q.Z = P.Z * Q.X := by rw [h1, h1']; ring
        exact_mod_cast this
      · have : (P.Y : ℚ) * Q.Z = P.Z * Q.Y := by rw [h2, h2']; ring
        exact_mod_cast this
      · have : (P.Y : ℚ) * Q.X = P.X * Q.Y := by rw [h1, h1', h2, h2']; ring
        exact_mod_cast this

theorem Rep.eq {E : Cv} {P Q : P2} {A B : E.Pt} (hP : Rep E P A) (hQ : Rep E Q B) :
    P2.eq P Q = true ↔ A = B := by
  rw [P2.eq_iff_same hP.nz hQ.nz, hP.same hQ]

theorem Rep.of_same {E : Cv} {P Q : P2} {A : E.Pt} (hP : Rep E P A) (h : P2.Same P Q) : Rep E Q A := by
  obtain ⟨a, b, ha, hb, h1, h2, h3⟩ := h
  match A, hP with
  | .zero, hP =>
    obtain ⟨k1, k2, k3⟩ := hP
    rw [k1, mul_zero] at h1
    rw [k3, mul_zero] at h3
    refine ⟨(mul_eq_zero.1 h1.symm).resolve_left hb, ?_, (mul_eq_zero.1 h3.symm).resolve_left hb⟩
    intro h0
    rw [h0, mul_zero] at h2
    exact mul_ne_zero ha k2 h2
  | .some x y hns, hP =>
    obtain ⟨k1, k2, k3⟩ := hP
    have hb' : (b : ℚ) ≠ 0 := by exact_mod_cast hb
    have h1 : (a : ℚ) * P.X = b * Q.X := by exact_mod_cast h1
    have h2 : (a : ℚ) * P.Y = b * Q.Y := by exact_mod_cast h2
    have h3' : (a : ℚ) * P.Z = b * Q.Z := by exact_mod_cast h3
    refine ⟨?_, ?_, ?_⟩
    · intro h0
      rw [h0, mul_zero] at h3
      exact mul_ne_zero ha k1 h3
    · apply mul_left_cancel₀ hb'
      rw [← h1, k2]; linear_combination x * h3'
    · apply mul_left_cancel₀ hb'
      rw [← h2, k3]; linear_combination y * h3'

theorem Rep.reduce {E : Cv} {P : P2} {A : E.Pt} (h : Rep E P A) : Rep E (P2.reduce P) A :=
  h.of_same (P2.same_reduce h.nz).symm

theorem rep_zero (E : Cv) : Rep E P2.zero 0 := ⟨rfl, one_ne_zero, rfl⟩

theorem Rep.Z_eq_zero {E : Cv} {P : P2} {A : E.Pt} (h : Rep E P A) : P.Z = 0 ↔ A = 0 := by
  match A, h with
  | .zero, h => exact ⟨fun _ => rfl, fun _ => h.2.2⟩
  | .some x y _, h => exact ⟨fun h' => absurd h' h.1, fun h' => absurd h' (Affine.Point.some_ne_zero _)⟩

theorem Rep.neg {E : Cv} {P : P2} {A : E.Pt} (h : Rep E P A) : Rep E (P2.neg E P) (-A) := by
  match A, h with
  | .zero, h =>
    obtain ⟨h1, h2, h3⟩ := h
    refine ⟨h1, ?_, h3⟩
    change -P.Y - E.a3 * P.Z - E.a1 * P.X ≠ 0
    rw [h1, h3]; simpa using h2
  | .some x y hns, h =>
    obtain ⟨h1, h2, h3⟩ := h
    rw [Affine.Point.neg_some]
    refine ⟨h1, h2, ?_⟩
    simp only [P2.neg, Affine.negY, Cv.Q]
    push_cast
    rw [h2, h3]; ring

theorem Rep.twice {E : Cv} {P : P2} {A : E.Pt} (h : Rep E P A) : Rep E (P2.twice E P) (A + A) := by
  unfold P2.twice
  by_cases hz : P.Z = 0
  · rw [if_pos hz, h.Z_eq_zero.1 hz, add_zero]
    exact rep_zero E
  rw [if_neg hz]
  by_cases he : P2.eq P (P2.neg E P) = true
  · rw [if_pos he]
    have : A = -A := (h.eq h.neg).1 he
    have : A + A = 0 := by
      nth_rewrite 2 [this]; exact add_neg_cancel A
    rw [this]
    exact rep_zero E
  · rw [if_neg he]
    match A, h with
    | .zero, h => exact absurd h.2.2 hz
    | .some x y hns, h =>
      have hne : y ≠ E.Q.toAffine.negY x y := by
        intro hy
        apply he
        rw [h.eq h.neg, Affine.Point.neg_some]
        rw [Affine.Point.some.injEq]
        exact ⟨rfl, hy⟩
      rw [Affine.Point.add_self_of_Y_ne hne]
      apply Rep.reduce
      obtain ⟨-, h2, h3⟩ := h
      have z : (P.Z : ℚ) ≠ 0 := by exact_mod_cast hz
      have e := eqn hns
      rw [Affine.negY] at hne
      simp only [Cv.Q] at hne
      have m : 2 * y + E.a1 * x + E.a3 ≠ 0 := by
        intro h0; apply hne; linear_combination h0
      have hM : ((2 * P.Y + E.a1 * P.X + E.a3 * P.Z : ℤ) : ℚ) = P.Z * (2 * y + E.a1 * x + E.a3) := by
        push_cast; rw [h2, h3]; ring
      have hM0 : (2 * P.Y + E.a1 * P.X + E.a3 * P.Z : ℤ) ≠ 0 := by
        intro h0
        rw [h0] at hM
        exact mul_ne_zero z m (by rw [← hM]; norm_num)
      obtain ⟨l, hl⟩ : ∃ l, l = E.Q.toAffine.slope x x y y := ⟨_, rfl⟩
      have hlm : l * (2 * y + E.a1 * x + E.a3) = 3 * x ^ 2 + 2 * E.a2 * x + E.a4 - E.a1 * y := by
        rw [hl, Affine.slope_of_Y_ne rfl (by rw [Affine.negY]; exact hne)]
        simp only [Affine.negY, Cv.Q]
        have m' : y - (-y - E.a1 * x - E.a3) = 2 * y + E.a1 * x + E.a3 := by ring
        rw [m', div_mul_cancel₀ _ m]
      have hL : ((3 * P.X * P.X + 2 * E.a2 * P.X * P.Z + E.a4 * (P.Z * P.Z) - E.a1 * P.Y * P.Z : ℤ) : ℚ)
          = P.Z ^ 2 * (l * (2 * y + E.a1 * x + E.a3)) := by
        push_cast; rw [h2, h3, hlm]; ring
      have hN : ((-P.X * P.X * P.X - E.a3 * P.Y * (P.Z * P.Z) + E.a4 * P.X * (P.Z * P.Z)
          + 2 * E.a6 * P.Z * (P.Z * P.Z) : ℤ) : ℚ) =
          P.Z ^ 3 * ((2 * y + E.a1 * x + E.a3) * (y - l * x)) := by
        push_cast; rw [h2, h3]
        linear_combination (P.Z : ℚ) ^ 3 * x * hlm - 2 * (P.Z : ℚ) ^ 3 * e
      have hMz := mul_ne_zero hM0 hz
      refine ⟨mul_ne_zero (mul_ne_zero hMz hMz) hMz, ?_, ?_⟩
      · rw [← hl]
        simp only [Affine.addX, Cv.Q]
        simp only [Int.cast_mul, Int.cast_add, Int.cast_sub, Int.cast_neg] at hL hM hN ⊢
        rw [hL, hM, h2]
        push_cast
        ring
      · rw [← hl]
        simp only [Affine.addX, Affine.negY, Affine.addY, Affine.negAddY, Cv.Q]
        simp only [Int.cast_mul, Int.cast_add, Int.cast_sub, Int.cast_neg] at hL hM hN ⊢
        rw [hL, hM, hN, h2]
        push_cast
        ring

theorem Rep.add {E : Cv} {P Q : P2} {A B : E.Pt} (hP : Rep E P A) (hQ : Rep E Q B) :
    Rep E (P2.add E P Q) (A + B) := by
  unfold P2.add
  by_cases hz : P.Z = 0
  · rw [if_pos hz, hP.Z_eq_zero.1 hz, zero_add]
    exact hQ
  rw [if_neg hz]
  by_cases hz' : Q.Z = 0
  · rw [if_pos hz', hQ.Z_eq_zero.1 hz', add_zero]
    exact hP
  rw [if_neg hz']
  by_cases he : P2.eq P Q = true
  · rw [if_pos he, (hP.eq hQ).1 he]
    exact hQ.twice
  rw [if_neg he]
  by_cases he' : P2.eq P (P2.neg E Q) = true
  · rw [if_pos he', (hP.eq hQ.neg).1 he', neg_add_cancel]
    exact rep_zero E
  rw [if_neg he']
  have hAB : ¬ A = B := fun h => he ((hP.eq hQ).2 h)
  have hAB' : ¬ A = -B := fun h => he' ((hP.eq hQ.neg).2 h)
  match A, B, hP, hQ with
  | .zero, _, hP, _ => exact absurd hP.2.2 hz
  | .some x y hns, .zero, _, hQ => exact absurd hQ.2.2 hz'
  | .some x y hns, .some x' y' hns', hP, hQ =>
    have hx : x ≠ x' := by
      intro h
      rcases Affine.Point.X_eq_iff.1 h with h | h
      · exact hAB h
      · exact hAB' h
    rw [Affine.Point.add_of_X_ne hx]
    apply Rep.reduce
    obtain ⟨-, h2, h3⟩ := hP
    obtain ⟨-, k2, k3⟩ := hQ
    have z : (P.Z : ℚ) ≠ 0 := by exact_mod_cast hz
    have z' : (Q.Z : ℚ) ≠ 0 := by exact_mod_cast hz'
    have hx' : x - x' ≠ 0 := sub_ne_zero.2 hx
    have hM : ((-Q.X * P.Z + P.X * Q.Z : ℤ) : ℚ) = P.Z * Q.Z * (x - x') := by
      push_cast; rw [h2, k2]; ring
    have hM0 : (-Q.X * P.Z + P.X * Q.Z : ℤ) ≠ 0 := by
      intro h0
      rw [h0] at hM
      exact mul_ne_zero (mul_ne_zero z z') hx' (by rw [← hM]; norm_num)
    refine ⟨mul_ne_zero hM0 (mul_ne_zero (mul_ne_zero hM0 hM0) (mul_ne_zero hz hz')), ?_, ?_⟩
    · rw [Affine.slope_of_X_ne hx]
      simp only [Affine.addX, Cv.Q]
      push_cast
      rw [h2, h3, k2, k3]
      field_simp
      ring
    · rw [Affine.slope_of_X_ne hx]
      simp only [Affine.addX, Affine.negY, Affine.addY, Affine.negAddY, Cv.Q]
      push_cast
      rw [h2, h3, k2, k3]
      field_simp
      ring

theorem Rep.addAssign {E : Cv} {P Q : P2} {A B : E.Pt} (hP : Rep E P A) (hQ : Rep E Q B) :
    Rep E (P2.addAssign E P Q) (A + B) := (hP.add hQ).reduce

theorem Rep.sub {E : Cv} {P Q : P2} {A B : E.Pt} (hP : Rep E P A) (hQ : Rep E Q B) :
    Rep E (P2.sub E P Q) (A - B) := by
  have := hQ.neg.addAssign hP
  rw [neg_add_eq_sub] at this
  exact this

theorem Rep.subAssign {E : Cv} {P Q : P2} {A B : E.Pt} (hP : Rep E P A) (hQ : Rep E Q B) :
    Rep E (P2.subAssign E P Q) (A - B) := by
  have := (hQ.neg.addAssign hP).reduce
  rw [neg_add_eq_sub] at this
  exact this

/-! ## the results are in normal form -/

theorem reduced_zero : P2.Reduced P2.zero := ⟨by decide, le_refl _⟩

theorem reduced_neg {E : Cv} {P : P2} (h : P2.Reduced P) : P2.Reduced (P2.neg E P) := by
  refine ⟨?_, h.2⟩
  have h1 := h.1
  rw [← Nat.dvd_one]
  have hd : ((Int.gcd (Int.gcd (P2.neg E P).X (P2.neg E P).Y) (P2.neg E P).Z : ℕ) : ℤ) ∣ 1 := by
    have dX : ((Int.gcd (Int.gcd (P2.neg E P).X (P2.neg E P).Y) (P2.neg E P).Z : ℕ) : ℤ) ∣ P.X :=
      dvd_trans (Int.gcd_dvd_left _ _) (Int.gcd_dvd_left _ _)
    have dY : ((Int.gcd (Int.gcd (P2.neg E P).X (P2.neg E P).Y) (P2.neg E P).Z : ℕ) : ℤ) ∣
      -P.Y - E.a3 * P.Z - E.a1 * P.X :=
      dvd_trans (Int.gcd_dvd_left _ _) (Int.gcd_dvd_right _ _)
    have dZ : ((Int.gcd (Int.gcd (P2.neg E P).X (P2.neg E P).Y) (P2.neg E P).Z : ℕ) : ℤ) ∣ P.Z :=
      Int.gcd_dvd_right _ _
    have dY' : ((Int.gcd (Int.gcd (P2.neg E P).X (P2.neg E P).Y) (P2.neg E P).Z : ℕ) : ℤ) ∣ P.Y := by
      have e : P.Y = -(-P.Y - E.a3 * P.Z - E.a1 * P.X) - E.a3 * P.Z - E.a1 * P.X := by ring
      rw [e]
      exact dvd_sub (dvd_sub ((dvd_neg).2 dY) (Dvd.dvd.mul_left dZ _)) (Dvd.dvd.mul_left dX _)
    exact (P2.gcd3_dvd h1 dX dY' dZ).dvd
  exact_mod_cast hd

theorem twice_shape (E : Cv) (P : P2) :
    P2.twice E P = P2.zero ∨ ∃ R : P2, P2.twice E P = P2.reduce R := by
  unfold P2.twice P2.mk'
  split_ifs
  · exact Or.inl rfl
  · exact Or.inl rfl
  · exact Or.inr ⟨_, rfl⟩

theorem add_shape (E : Cv) (P Q : P2) :
    P2.add E P Q = P ∨ P2.add E P Q = Q ∨ P2.add E P Q = P2.zero ∨
      ∃ R : P2, P2.add E P Q = P2.reduce R := by
  unfold P2.add P2.mk'
  split_ifs
  · exact Or.inr (Or.inl rfl)
  · exact Or.inl rfl
  · rcases twice_shape E Q with h | h
    · exact Or.inr (Or.inr (Or.inl h))
    · exact Or.inr (Or.inr (Or.inr h))
  · exact Or.inr (Or.inr (Or.inl rfl))
  · exact Or.inr (Or.inr (Or.inr ⟨_, rfl⟩))

theorem nz_reduce_iff (R : P2) : P2.NZ (P2.reduce R) → P2.NZ R := by
  intro h
  by_contra hn
  have hn' := hn
  unfold P2.NZ at hn'
  push Not at hn'
  obtain ⟨X, Y, Z⟩ := R
  dsimp only at hn'
  obtain ⟨rfl, rfl, rfl⟩ := hn'
  rw [Props.C34_reduce_zero] at h
  exact hn h

theorem Rep.twice_reduced {E : Cv} {P : P2} {A : E.Pt} (h : Rep E P A) :
    P2.Reduced (P2.twice E P) := by
  have hn := h.twice.nz
  rcases twice_shape E P with e | ⟨R, e⟩
  · rw [e]; exact reduced_zero
  · rw [e] at hn ⊢; exact P2.reduced_reduce (nz_reduce_iff R hn)

theorem Rep.add_reduced {E : Cv} {P Q : P2} {A B : E.Pt} (hP : Rep E P A) (hQ : Rep E Q B)
    (rP : P2.Reduced P) (rQ : P2.Reduced Q) : P2.Reduced (P2.add E P Q) := by
  have hn := (hP.add hQ).nz
  rcases add_shape E P Q with e | e | e | ⟨R, e⟩
  · rw [e]; exact rP
  · rw [e]; exact rQ
  · rw [e]; exact reduced_zero
  · rw [e] at hn ⊢; exact P2.reduced_reduce (nz_reduce_iff R hn)

/-! ## multiples -/

theorem mulLoop_rep {E : Cv} (n : ℕ) (Q ans : P2) : ∀ {A B : E.Pt}, Rep E Q A → Rep E ans B →
    P2.Reduced ans → 0 < n →
    Rep E (P2.mulLoop E n Q ans) (B + (n - n % 2 : ℕ) • A) ∧
      P2.Reduced (P2.mulLoop E n Q ans) := by
  fun_induction P2.mulLoop E n Q ans with
  | case1 n Q ans hn Q' =>
    rename_i n' ih
    intro A B hQ hans hr hpos
    have hQ' : Rep E Q' (A + A) := hQ.twice
    have hn2 : n' = n / 2 := rfl
    have hn' : 0 < n' := by omega
    by_cases hodd : n' % 2 = 1
    · simp only [hodd, dite_true, if_true] at ih ⊢
      obtain ⟨i1, i2⟩ := ih hQ' (hans.add hQ') (hans.add_reduced hQ' hr hQ.twice_reduced) hn'
      refine ⟨?_, i2⟩
      have e : B + (n - n % 2 : ℕ) • A = B + (A + A) + (n' - 1) • (A + A) := by
        have : (n - n % 2 : ℕ) = 2 + 2 * (n' - 1) := by omega
        rw [this, add_nsmul, mul_nsmul', two_nsmul, two_nsmul, nsmul_add]
        abel
      rw [e]; exact i1
    · have hodd0 : n' % 2 = 0 := by omega
      simp only [hodd, dite_false, if_false] at ih ⊢
      obtain ⟨i1, i2⟩ := ih hQ' hans hr hn'
      refine ⟨?_, i2⟩
      have e : B + (n - n % 2 : ℕ) • A = B + (n' - n' % 2 : ℕ) • (A + A) := by
        have : (n - n % 2 : ℕ) = 2 * (n' - n' % 2) := by omega
        rw [this, mul_nsmul', two_nsmul, nsmul_add]
      rw [e]; exact i1
  | case2 n Q ans hn =>
    intro A B hQ hans hr hpos
    have : n - n % 2 = 0 := by omega
    rw [this, zero_nsmul, add_zero]
    exact ⟨hans, hr⟩

theorem Rep.mul {E : Cv} {P : P2} {A : E.Pt} (h : Rep E P A) (hr : P2.Reduced P) (n : ℤ) :
    Rep E (P2.mul E n P) (n • A) ∧ P2.Reduced (P2.mul E n P) := by
  unfold P2.mul
  by_cases h0 : P.Z = 0 ∨ n = 0
  · rw [if_pos (by simpa using h0)]
    have : n • A = 0 := by
      rcases h0 with h0 | h0
      · rw [h.Z_eq_zero.1 h0, zsmul_zero]
      · rw [h0, zero_zsmul]
    rw [this]
    exact ⟨rep_zero E, reduced_zero⟩
  rw [if_neg (by simpa using h0)]
  push Not at h0
  -- the result for |n| and the sign
  have key : ∀ R : P2, Rep E R (n.natAbs • A) → P2.Reduced R →
      Rep E (if n < 0 then P2.neg E R else R) (n • A) ∧
      P2.Reduced (if n < 0 then P2.neg E R else R) := by
    intro R hR hred
    by_cases hneg : n < 0
    · rw [if_pos hneg]
      have : n • A = -(n.natAbs • A) := by
        have e : n = -(n.natAbs : ℤ) := by omega
        conv_lhs => rw [e]
        rw [neg_zsmul, natCast_zsmul]
      rw [this]
      exact ⟨hR.neg, reduced_neg hred⟩
    · rw [if_neg hneg]
      have : n • A = n.natAbs • A := by
        have e : n = (n.natAbs : ℤ) := by omega
        conv_lhs => rw [e]
        rw [natCast_zsmul]
      rw [this]
      exact ⟨hR, hred⟩
  simp only [decide_eq_true_eq]
  by_cases h1 : n.natAbs = 1
  · rw [if_pos h1]
    exact key P (by rw [h1, one_nsmul]; exact h) hr
  rw [if_neg h1]
  by_cases h2 : n.natAbs = 2
  · rw [if_pos h2]
    exact key _ (by rw [h2, two_nsmul]; exact h.twice) h.twice_reduced
  rw [if_neg h2]
  apply key
  · by_cases hodd : n.natAbs % 2 = 1
    · rw [if_pos hodd]
      have := (mulLoop_rep n.natAbs P P h h hr (by omega)).1
      have e : A + (n.natAbs - n.natAbs % 2) • A = n.natAbs • A := by
        rw [← succ_nsmul']
        congr 1
        omega
      rw [e] at this
      exact this
    · rw [if_neg hodd]
      have := (mulLoop_rep n.natAbs P P2.zero h (rep_zero E) reduced_zero (by omega)).1
      have e : 0 + (n.natAbs - n.natAbs % 2) • A = n.natAbs • A := by
        rw [zero_add]
        congr 1
        omega
      rw [e] at this
      exact this
  · by_cases hodd : n.natAbs % 2 = 1
    · rw [if_pos hodd]
      exact (mulLoop_rep n.natAbs P P h h hr (by omega)).2
    · rw [if_neg hodd]
      exact (mulLoop_rep n.natAbs P P2.zero h (rep_zero E) reduced_zero (by omega)).2

namespace Props

open P2

/-- C31: every valid triple represents exactly one rational point of the curve, and every rational
point is represented by a reduced valid triple. -/
theorem C31_represents (E : Cv) (hE : E.W.Δ ≠ 0) :
    (∀ P : P2, isvalid E P = true → ∃! A : E.Pt, Rep E P A) ∧
    (∀ A : E.Pt, ∃ P : P2, isvalid E P = true ∧ Reduced P ∧ Rep E P A) := by
  constructor
  · intro P hP
    obtain ⟨A, hA⟩ := rep_exists hE hP
    exact ⟨A, hA, fun B hB => (hB.same hA).1 (Same.refl P)⟩
  · intro A
    match A with
    | .zero => exact ⟨zero, (rep_zero E).valid, reduced_zero, rep_zero E⟩
    | .some x y h =>
      have hr : Rep E ⟨x.num * y.den, y.num * x.den, x.den * y.den⟩ (.some x y h) := by
        have dx : (x.den : ℚ) ≠ 0 := by exact_mod_cast x.den_nz
        have dy : (y.den : ℚ) ≠ 0 := by exact_mod_cast y.den_nz
        refine ⟨mul_ne_zero (by exact_mod_cast x.den_nz) (by exact_mod_cast y.den_nz), ?_, ?_⟩
        · push_cast; rw [← Rat.mul_den_eq_num x]; ring
        · push_cast; rw [← Rat.mul_den_eq_num y]; ring
      exact ⟨_, hr.reduce.valid, reduced_reduce hr.nz, hr.reduce⟩

/-- C31: `-P`, `P.twice()`, `P + Q`, `P += Q`, `P - Q`, `P -= Q` represent the values of the group
law. -/
theorem C31_group_law (E : Cv) (P Q : P2) (A B : E.Pt) (hP : Rep E P A) (hQ : Rep E Q B) :
    Rep E (neg E P) (-A) ∧ Rep E (twice E P) (A + A) ∧ Rep E (add E P Q) (A + B) ∧
    Rep E (addAssign E P Q) (A + B) ∧ Rep E (sub E P Q) (A - B) ∧
    Rep E (subAssign E P Q) (A - B) :=
  ⟨hP.neg, hP.twice, hP.add hQ, hP.addAssign hQ, hP.sub hQ, hP.subAssign hQ⟩

/-- C31: the results are valid points, in normal form if the arguments are. -/
theorem C31_valid_reduced (E : Cv) (hE : E.W.Δ ≠ 0) (P Q : P2) (hP : isvalid E P = true)
    (hQ : isvalid E Q = true) (rP : Reduced P) (rQ : Reduced Q) :
    (isvalid E (neg E P) = true ∧ Reduced (neg E P)) ∧
    (isvalid E (twice E P) = true ∧ Reduced (twice E P)) ∧
    (isvalid E (add E P Q) = true ∧ Reduced (add E P Q)) ∧
    (isvalid E (addAssign E P Q) = true ∧ Reduced (addAssign E P Q)) ∧
    (isvalid E (sub E P Q) = true ∧ Reduced (sub E P Q)) ∧
    (isvalid E (subAssign E P Q) = true ∧ Reduced (subAssign E P Q)) := by
  obtain ⟨A, hA⟩ := rep_exists hE hP
  obtain ⟨B, hB⟩ := rep_exists hE hQ
  exact ⟨⟨hA.neg.valid, reduced_neg rP⟩, ⟨hA.twice.valid, hA.twice_reduced⟩,
    ⟨(hA.add hB).valid, hA.add_reduced hB rP rQ⟩,
    ⟨(hA.addAssign hB).valid, reduced_reduce (hA.add hB).nz⟩,
    ⟨(hA.sub hB).valid, reduced_reduce (hB.neg.add hA).nz⟩,
    ⟨(hA.subAssign hB).valid, reduced_reduce (hB.neg.addAssign hA).nz⟩⟩

/-- C31: on the triples themselves the operations satisfy the group axioms up to `==`. -/
theorem C31_axioms (E : Cv) (hE : E.W.Δ ≠ 0) (P Q R : P2) (hP : isvalid E P = true)
    (hQ : isvalid E Q = true) (hR : isvalid E R = true) :
    P2.eq (add E P Q) (add E Q P) = true ∧
    P2.eq (add E (add E P Q) R) (add E P (add E Q R)) = true ∧
    P2.eq (add E P zero) P = true ∧ P2.eq (add E P (neg E P)) zero = true ∧
    P2.eq (sub E (add E P Q) Q) P = true ∧ P2.eq (twice E P) (add E P P) = true := by
  obtain ⟨A, hA⟩ := rep_exists hE hP
  obtain ⟨B, hB⟩ := rep_exists hE hQ
  obtain ⟨C, hC⟩ := rep_exists hE hR
  refine ⟨((hA.add hB).eq (hB.add hA)).2 (add_comm A B),
    (((hA.add hB).add hC).eq (hA.add (hB.add hC))).2 (add_assoc A B C),
    ((hA.add (rep_zero E)).eq hA).2 (add_zero A),
    ((hA.add hA.neg).eq (rep_zero E)).2 (add_neg_cancel A),
    (((hA.add hB).sub hB).eq hA).2 (add_sub_cancel_right A B),
    (hA.twice.eq (hA.add hA)).2 rfl⟩

/-- 37a1: `(0,0) + (1,0) = (-1,-1)`, and `5(0,0)` has denominator 8 -/
example : let E : Cv := ⟨0, 0, 1, -1, 0⟩
    isvalid E ⟨0, 0, 1⟩ = true ∧ add E ⟨0, 0, 1⟩ ⟨1, 0, 1⟩ = ⟨-1, -1, 1⟩ ∧
    twice E ⟨0, 0, 1⟩ = ⟨1, 0, 1⟩ ∧ add E ⟨1, 0, 1⟩ ⟨-1, -1, 1⟩ = ⟨2, -5, 8⟩ := by decide +kernel

/-- C32: `n * P` represents the `n`-fold multiple, for every integer `n`; it is in normal form. -/
theorem C32_mul (E : Cv) (P : P2) (A : E.Pt) (h : Rep E P A) (hr : Reduced P) (n : ℤ) :
    Rep E (mul E n P) (n • A) ∧ Reduced (mul E n P) := h.mul hr n

/-- C32: consequences on the triples, up to `==` -/
theorem C32_laws (E : Cv) (hE : E.W.Δ ≠ 0) (P : P2) (hP : isvalid E P = true) (hr : Reduced P)
    (m n : ℤ) :
    P2.eq (mul E 0 P) zero = true ∧ P2.eq (mul E 1 P) P = true ∧
    P2.eq (mul E (-n) P) (neg E (mul E n P)) = true ∧
    P2.eq (mul E (m + n) P) (add E (mul E m P) (mul E n P)) = true ∧
    P2.eq (mul E (m * n) P) (mul E m (mul E n P)) = true := by
  obtain ⟨A, hA⟩ := rep_exists hE hP
  have h := fun k => (hA.mul hr k).1
  have h' := fun k => (hA.mul hr k).2
  refine ⟨((h 0).eq (rep_zero E)).2 (zero_zsmul _), ((h 1).eq hA).2 (one_zsmul _),
    ((h (-n)).eq (h n).neg).2 (neg_zsmul _ _), ((h (m + n)).eq ((h m).add (h n))).2 (add_zsmul _ _ _),
    ((h (m * n)).eq ((h n).mul (h' n) m).1).2 (mul_zsmul _ _ _)⟩

end Props

end Eclib.Curve
