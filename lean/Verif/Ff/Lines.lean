import Verif.Ff.Ring

/-!
# The divisors of lines; values; leading coefficients at infinity
-/

set_option linter.unusedSectionVars false

namespace Eclib.Ff

open Pmod (Pq coords)
open Polynomial
open WeierstrassCurve.Affine (CoordinateRing)
open WeierstrassCurve.Affine.CoordinateRing (mk XClass YClass XIdeal YIdeal XYIdeal)

variable {F : Type} [Field F] [DecidableEq F] {E : WeierstrassCurve F}

/-! ## divisors -/

theorem toCR_one : toCR E ⟨[1], []⟩ = 1 := by simp [toCR]

theorem tangent_ideal (A : E.toAffine.Point) :
    Ideal.span {toCR E (tangent E (coords A))} = I A * I A * I (-(A + A)) := by
  cases A with
  | zero =>
    change Ideal.span {toCR E ⟨[1], []⟩} = I (0 : E.toAffine.Point) * I (0 : E.toAffine.Point) *
      I (-((0 : E.toAffine.Point) + 0))
    rw [toCR_one, Ideal.span_singleton_one, add_zero, neg_zero, I_zero, mul_one, mul_one, Ideal.one_eq_top]
  | some x y h =>
    have hd : y + y + E.a₁ * x + E.a₃ = y - E.toAffine.negY x y := by
      simp only [WeierstrassCurve.Affine.negY]; ring
    change Ideal.span {toCR E (tangent E (.pt x y))} = _
    unfold tangent
    simp only
    by_cases h0 : y + y + E.a₁ * x + E.a₃ = 0
    · rw [if_pos h0]
      rw [hd, sub_eq_zero] at h0
      have h2 := WeierstrassCurve.Affine.Point.add_self_of_Y_eq (h₁ := h) h0
      have hA := eq_neg_of_add_eq_zero_left h2
      rw [h2, neg_zero, I_zero, mul_one]
      nth_rw 2 [hA]
      rw [I_neg_mul]
      rfl
    · rw [if_neg h0]
      have hne : y ≠ E.toAffine.negY x y := fun h => h0 (by rw [hd, ← h, sub_self])
      rw [line_toCR, ← line_ideal h h (fun hh => hne hh.2), WeierstrassCurve.Affine.slope_of_Y_ne rfl hne]
      congr 5
      · simp only [WeierstrassCurve.toAffine]
        ring

theorem chord_ideal (A B : E.toAffine.Point) :
    Ideal.span {toCR E (chord E (coords A) (coords B))} = I A * I B * I (-(A + B)) := by
  cases A with
  | zero =>
    change Ideal.span {toCR E (chord E .oo (coords B))} = I (0 : E.toAffine.Point) * I B * I (-((0 : E.toAffine.Point) + B))
    rw [I_zero, one_mul, zero_add, I_neg_mul]
    rfl
  | some x y h =>
    cases B with
    | zero =>
      change Ideal.span {toCR E (vertical (coords (.some x y h)))} = I (.some x y h) * I (0 : E.toAffine.Point) *
        I (-(.some x y h + (0 : E.toAffine.Point)))
      rw [I_zero, mul_one, add_zero, I_neg_mul]
    | some x' y' h' =>
      change Ideal.span {toCR E (chord E (.pt x y) (.pt x' y'))} = _
      unfold chord
      simp only
      by_cases hx : x - x' = 0
      · rw [if_pos hx]
        obtain rfl := sub_eq_zero.mp hx
        by_cases hy : y - y' = 0
        · rw [if_pos hy]
          obtain rfl := sub_eq_zero.mp hy
          exact tangent_ideal (.some x y h)
        · rw [if_neg hy]
          have hn : y = E.toAffine.negY x y' :=
            (WeierstrassCurve.Affine.Y_eq_of_X_eq h.1 h'.1 rfl).resolve_left (fun e => hy (sub_eq_zero.mpr e))
          have h2 := WeierstrassCurve.Affine.Point.add_of_Y_eq (h₁ := h) (h₂ := h') rfl hn
          have hA := eq_neg_of_add_eq_zero_right h2
          rw [h2, neg_zero, I_zero, mul_one, hA, I_neg_mul]
          rfl
      · rw [if_neg hx, line_toCR, ← line_ideal h h' (fun hh => hx (sub_eq_zero.mpr hh.1)),
          WeierstrassCurve.Affine.slope_of_X_ne (fun hh => hx (sub_eq_zero.mpr hh))]

/-! ## values -/

theorem ev_XClass {x y : F} (h : E.toAffine.Equation x y) (c : F) : ev h (XClass E.toAffine c) = x - c := by
  rw [XClass_smul, ev_smul, map_one]
  simp

theorem ev_YClass {x y : F} (h : E.toAffine.Equation x y) (p : F[X]) : ev h (YClass E.toAffine p) = y - p.eval x := by
  simp [YClass, ev]

/-- functions vanishing at a point -/
theorem ker_ev {x y : F} (h : E.toAffine.Nonsingular x y) : RingHom.ker (ev h.1) = I (.some x y h) := by
  have hle : I (.some x y h) ≤ RingHom.ker (ev h.1) := by
    change XYIdeal E.toAffine x (C y) ≤ _
    rw [XYIdeal, Ideal.span_le]
    rintro z (rfl | rfl)
    · exact RingHom.mem_ker.mpr (by rw [ev_XClass, sub_self])
    · exact RingHom.mem_ker.mpr (by rw [ev_YClass, eval_C, sub_self])
  refine le_antisymm (fun z hz => ?_) hle
  obtain ⟨p, q, rfl⟩ := CoordinateRing.exists_smul_basis_eq z
  have h0 := RingHom.mem_ker.mp hz
  rw [ev_basis] at h0
  change _ ∈ XYIdeal E.toAffine x (C y)
  obtain ⟨p', hp⟩ := X_sub_C_dvd_sub_C_eval (a := x) (p := p)
  obtain ⟨q', hq⟩ := X_sub_C_dvd_sub_C_eval (a := x) (p := q)
  have hX : XClass E.toAffine x ∈ XYIdeal E.toAffine x (C y) := Ideal.subset_span (by simp)
  have hY : YClass E.toAffine (C y) ∈ XYIdeal E.toAffine x (C y) := Ideal.subset_span (by simp)
  have : p • (1 : E.toAffine.CoordinateRing) + q • mk E.toAffine Polynomial.X =
      (mk E.toAffine (C p') + mk E.toAffine (C q') * mk E.toAffine Polynomial.X) * XClass E.toAffine x +
        mk E.toAffine (C (C (q.eval x))) * YClass E.toAffine (C y) := by
    rw [CoordinateRing.smul, CoordinateRing.smul]
    generalize hqx : eval x q = qx at *
    rw [sub_eq_iff_eq_add.mp hp, sub_eq_iff_eq_add.mp hq]
    have e : (C (eval x p) : F[X]) = -(C y * C qx) := by
      rw [← C_mul, ← C_neg]; congr 1; linear_combination h0
    rw [e]
    simp only [XClass, YClass, map_add, map_mul, map_sub, map_neg]
    ring
  rw [this]
  exact Ideal.add_mem _ (Ideal.mul_mem_left _ _ hX) (Ideal.mul_mem_left _ _ hY)

/-- the ideals of different points -/
theorem I_le_iff {x y : F} (h : E.toAffine.Nonsingular x y) (B : E.toAffine.Point) :
    I B ≤ I (.some x y h) ↔ B = .some x y h := by
  refine ⟨fun hle => ?_, fun hB => by rw [hB]⟩
  rw [← ker_ev] at hle
  cases B with
  | zero =>
    have := hle (show (1 : E.toAffine.CoordinateRing) ∈ I (0 : E.toAffine.Point) by rw [I_zero]; simp)
    rw [RingHom.mem_ker, map_one] at this
    exact absurd this one_ne_zero
  | some x' y' h' =>
    have h1 := RingHom.mem_ker.mp (hle (show XClass E.toAffine x' ∈ XYIdeal E.toAffine x' (C y') from Ideal.subset_span (by simp)))
    have h2 := RingHom.mem_ker.mp (hle (show YClass E.toAffine (C y') ∈ XYIdeal E.toAffine x' (C y') from Ideal.subset_span (by simp)))
    rw [ev_XClass, sub_eq_zero] at h1
    rw [ev_YClass, eval_C, sub_eq_zero] at h2
    subst h1 h2
    rfl

/-- a function with the divisor `∏ A_i` vanishes exactly at the `A_i` -/
theorem ev_eq_zero {x y : F} (h : E.toAffine.Nonsingular x y) (z : E.toAffine.CoordinateRing) (l : List E.toAffine.Point)
    (hz : Ideal.span {z} = (l.map I).prod) : ev h.1 z = 0 ↔ WeierstrassCurve.Affine.Point.some x y h ∈ l := by
  rw [← RingHom.mem_ker, ← Ideal.span_singleton_le_iff_mem, hz]
  have hp : (RingHom.ker (ev h.1)).IsPrime := RingHom.ker_isPrime _
  constructor
  · intro hle
    clear hz
    induction l with
    | nil =>
      rw [List.map_nil, List.prod_nil, Ideal.one_eq_top] at hle
      exact absurd (top_le_iff.mp hle) hp.ne_top
    | cons A l ih =>
      rw [List.map_cons, List.prod_cons, hp.mul_le] at hle
      rcases hle with hle | hle
      · rw [ker_ev h, I_le_iff] at hle
        rw [hle]; exact List.mem_cons_self
      · exact List.mem_cons_of_mem _ (ih hle)
  · intro hm
    rw [ker_ev h]
    obtain ⟨s, t, rfl⟩ := List.append_of_mem hm
    rw [List.map_append, List.map_cons, List.prod_append, List.prod_cons]
    exact le_trans Ideal.mul_le_right Ideal.mul_le_left

/-! ## leading coefficients at infinity -/

/-- the coefficients from the place `n` on vanish -/
def D (p : F[X]) (n : ℕ) : Prop := ∀ i, n ≤ i → p.coeff i = 0

theorem D.mono {p : F[X]} {m n : ℕ} (h : D p m) (hmn : m ≤ n) : D p n := fun i hi => h i (hmn.trans hi)

theorem D.add {p q : F[X]} {n : ℕ} (h : D p n) (h' : D q n) : D (p + q) n := fun i hi => by
  rw [coeff_add, h i hi, h' i hi, add_zero]

theorem D.sub {p q : F[X]} {n : ℕ} (h : D p n) (h' : D q n) : D (p - q) n := fun i hi => by
  rw [coeff_sub, h i hi, h' i hi, sub_zero]

theorem D.mul {p q : F[X]} {m n k : ℕ} (h : D p m) (h' : D q n) (hk : m + n ≤ k + 1) : D (p * q) k := fun i hi => by
  rw [coeff_mul]
  refine Finset.sum_eq_zero fun x hx => ?_
  have := Finset.mem_antidiagonal.mp hx
  rcases le_or_gt m x.1 with h1 | h1
  · rw [h _ h1, zero_mul]
  · rw [h' _ (by omega), mul_zero]

theorem D_pow (k : ℕ) : D (X ^ k : F[X]) (k + 1) := fun i hi => by
  rw [coeff_X_pow, if_neg (by omega)]

theorem D_C (c : F) : D (C c) 1 := fun i hi => by rw [coeff_C, if_neg (by omega)]

theorem D_X : D (X : F[X]) 2 := fun i hi => by rw [coeff_X, if_neg (by omega)]

theorem D_zero (n : ℕ) : D (0 : F[X]) n := fun i _ => coeff_zero i

/-- a function `p + qY` with a pole of order `n` at infinity and leading coefficient 1, where `X` has order 2, `Y` order 3 -/
def Mon (n : ℕ) (z : E.toAffine.CoordinateRing) : Prop :=
  ∃ p q : F[X], z = p • (1 : E.toAffine.CoordinateRing) + q • mk E.toAffine Polynomial.X ∧
    ((∃ k, n = 2 * k ∧ D (p - X ^ k) k ∧ D q (k - 1)) ∨ (∃ k, n = 2 * k + 3 ∧ D (q - X ^ k) k ∧ D p (k + 2)))

theorem D_f1 : D (toPoly (f1 E) - X ^ 3) 3 := by
  rw [poly_f1, show X ^ 3 + C E.a₂ * X ^ 2 + C E.a₄ * X + C E.a₆ - X ^ 3 = C E.a₂ * X ^ 2 + C E.a₄ * X + C E.a₆ by ring]
  exact (((D_C _).mul (D_pow 2) (by omega)).add ((D_C _).mul D_X (by omega))).add ((D_C _).mono (by omega))

theorem D_f2 : D (toPoly (f2 E)) 2 := by
  rw [poly_f2]
  exact ((D_C _).mul D_X (by omega)).add ((D_C _).mono (by omega))

theorem D_of_sub {p : F[X]} {k n : ℕ} (h : D (p - X ^ k) k) (hn : k + 1 ≤ n) : D p n := by
  have := (h.mono (by omega : k ≤ n)).add ((D_pow k).mono hn)
  rwa [sub_add_cancel] at this

theorem D_sub_mul {p q : F[X]} {k l : ℕ} (h : D (p - X ^ k) k) (h' : D (q - X ^ l) l) : D (p * q - X ^ (k + l)) (k + l) := by
  have e : p * q - X ^ (k + l) = (p - X ^ k) * q + X ^ k * (q - X ^ l) := by rw [pow_add]; ring
  rw [e]
  exact (h.mul (D_of_sub h' le_rfl) (by omega)).add ((D_pow k).mul h' (by omega))

theorem Mon.mul {m n : ℕ} {z w : E.toAffine.CoordinateRing} (hz : Mon m z) (hw : Mon n w) : Mon (m + n) (z * w) := by
  obtain ⟨p, q, rfl, h⟩ := hz
  obtain ⟨p', q', rfl, h'⟩ := hw
  have hf1 : D (toPoly (f1 E)) 4 := D_of_sub D_f1 le_rfl
  have hf2 : D (toPoly (f2 E)) 2 := D_f2
  refine ⟨_, _, basis_mul p q p' q', ?_⟩
  rcases h with ⟨k, rfl, h1, h2⟩ | ⟨k, rfl, h1, h2⟩ <;> rcases h' with ⟨l, rfl, h3, h4⟩ | ⟨l, rfl, h3, h4⟩
  · left
    have hp := D_of_sub h1 le_rfl
    have hp' := D_of_sub h3 le_rfl
    refine ⟨k + l, by ring, ?_, ?_⟩
    · rw [add_sub_right_comm]
      refine (D_sub_mul h1 h3).add ?_
      rcases Nat.lt_or_ge k 2 with hk | hk
      · have : q = 0 := by
          ext i; rw [coeff_zero]; exact h2 i (by omega)
        rw [this]; simpa using D_zero _
      · rcases Nat.lt_or_ge l 2 with hl | hl
        · have : q' = 0 := by
            ext i; rw [coeff_zero]; exact h4 i (by omega)
          rw [this]; simpa using D_zero _
        · exact (hf1.mul h2 (k := k + 2) (by omega)).mul h4 (by omega)
    · rcases Nat.lt_or_ge k 2 with hk | hk
      · have : q = 0 := by
          ext i; rw [coeff_zero]; exact h2 i (by omega)
        rw [this]
        simp only [zero_mul, mul_zero, add_zero, sub_zero]
        rcases Nat.lt_or_ge l 2 with hl | hl
        · have : q' = 0 := by
            ext i; rw [coeff_zero]; exact h4 i (by omega)
          rw [this]; simpa using D_zero _
        · exact hp.mul h4 (by omega)
      · rcases Nat.lt_or_ge l 2 with hl | hl
        · have : q' = 0 := by
            ext i; rw [coeff_zero]; exact h4 i (by omega)
          rw [this]
          simp only [mul_zero, zero_add, sub_zero]
          exact h2.mul hp' (by omega)
        · exact ((hp.mul h4 (by omega)).add (h2.mul hp' (by omega))).sub ((hf2.mul h2 (k := k) (by omega)).mul h4 (by omega))
  · right
    have hp := D_of_sub h1 le_rfl
    have hq' := D_of_sub h3 le_rfl
    refine ⟨k + l, by ring, ?_, ?_⟩
    · rw [show p * q' + q * p' - toPoly (f2 E) * q * q' - X ^ (k + l) = (p * q' - X ^ (k + l)) + q * p' - toPoly (f2 E) * q * q' by ring]
      refine ((D_sub_mul h1 h3).add ?_).sub ?_
      · rcases Nat.lt_or_ge k 2 with hk | hk
        · have : q = 0 := by
            ext i; rw [coeff_zero]; exact h2 i (by omega)
          rw [this]; simpa using D_zero _
        · exact h2.mul h4 (by omega)
      · rcases Nat.lt_or_ge k 2 with hk | hk
        · have : q = 0 := by
            ext i; rw [coeff_zero]; exact h2 i (by omega)
          rw [this]; simpa using D_zero _
        · exact (hf2.mul h2 (k := k) (by omega)).mul hq' (by omega)
    · refine (hp.mul h4 (by omega)).add ?_
      rcases Nat.lt_or_ge k 2 with hk | hk
      · have : q = 0 := by
          ext i; rw [coeff_zero]; exact h2 i (by omega)
        rw [this]; simpa using D_zero _
      · exact (hf1.mul h2 (k := k + 2) (by omega)).mul hq' (by omega)
  · right
    have hp' := D_of_sub h3 le_rfl
    have hq := D_of_sub h1 le_rfl
    refine ⟨k + l, by ring, ?_, ?_⟩
    · rw [show p * q' + q * p' - toPoly (f2 E) * q * q' - X ^ (k + l) = (q * p' - X ^ (k + l)) + p * q' - toPoly (f2 E) * q * q' by ring]
      refine ((D_sub_mul h1 h3).add ?_).sub ?_
      · rcases Nat.lt_or_ge l 2 with hk | hk
        · have : q' = 0 := by
            ext i; rw [coeff_zero]; exact h4 i (by omega)
          rw [this]; simpa using D_zero _
        · exact h2.mul h4 (by omega)
      · rcases Nat.lt_or_ge l 2 with hk | hk
        · have : q' = 0 := by
            ext i; rw [coeff_zero]; exact h4 i (by omega)
          rw [this]; simpa using D_zero _
        · exact (hf2.mul hq (k := k + 2) (by omega)).mul h4 (by omega)
    · refine (h2.mul hp' (by omega)).add ?_
      rcases Nat.lt_or_ge l 2 with hk | hk
      · have : q' = 0 := by
          ext i; rw [coeff_zero]; exact h4 i (by omega)
        rw [this]; simpa using D_zero _
      · exact (hf1.mul hq (k := k + 4) (by omega)).mul h4 (by omega)
  · left
    have hq := D_of_sub h1 le_rfl
    have hq' := D_of_sub h3 le_rfl
    refine ⟨k + l + 3, by ring, ?_, ?_⟩
    · rw [add_sub_assoc]
      refine (h2.mul h4 (by omega)).add ?_
      have := D_sub_mul (D_f1 (E := E)) (D_sub_mul h1 h3)
      rw [← mul_assoc, show 3 + (k + l) = k + l + 3 by ring] at this
      exact this
    · exact ((h2.mul hq' (by omega)).add (hq.mul h4 (by omega))).sub ((hf2.mul hq (k := k + 2) (by omega)).mul hq' (by omega))

end Eclib.Ff
