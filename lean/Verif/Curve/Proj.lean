import Mathlib.Tactic.FieldSimp
import Mathlib.Tactic.Linarith
import Mathlib.Data.Int.GCD
import Mathlib.Data.Rat.Cast.Defs
import Verif.Curve.Invariants

/-!
# C34, C35: projective points and their changes of coordinates
-/

namespace Eclib.Curve

namespace P2

/-- `(X:Y:Z)` and `(X':Y':Z')` are the same projective point -/
def Same (P Q : P2) : Prop :=
  ∃ a b : ℤ, a ≠ 0 ∧ b ≠ 0 ∧ a * P.X = b * Q.X ∧ a * P.Y = b * Q.Y ∧ a * P.Z = b * Q.Z

/-- not all coordinates vanish -/
def NZ (P : P2) : Prop := P.X ≠ 0 ∨ P.Y ≠ 0 ∨ P.Z ≠ 0

/-- the normal form of the code: coprime coordinates, the last not negative -/
def Reduced (P : P2) : Prop :=
  Int.gcd (Int.gcd P.X P.Y) P.Z = 1 ∧ 0 ≤ P.Z

theorem Same.refl (P : P2) : Same P P := ⟨1, 1, one_ne_zero, one_ne_zero, rfl, rfl, rfl⟩

theorem Same.symm {P Q : P2} : Same P Q → Same Q P := by
  rintro ⟨a, b, ha, hb, h1, h2, h3⟩
  exact ⟨b, a, hb, ha, h1.symm, h2.symm, h3.symm⟩

theorem Same.trans {P Q R : P2} : Same P Q → Same Q R → Same P R := by
  rintro ⟨a, b, ha, hb, h1, h2, h3⟩ ⟨c, d, hc, hd, k1, k2, k3⟩
  exact ⟨c * a, b * d, mul_ne_zero hc ha, mul_ne_zero hb hd, by linear_combination c * h1 + b * k1,
    by linear_combination c * h2 + b * k2, by linear_combination c * h3 + b * k3⟩

theorem Same.nz {P Q : P2} (h : Same P Q) (hP : NZ P) : NZ Q := by
  obtain ⟨a, b, ha, hb, h1, h2, h3⟩ := h
  by_contra hQ
  unfold NZ at hQ hP
  push Not at hQ
  obtain ⟨q1, q2, q3⟩ := hQ
  rw [q1, mul_zero] at h1
  rw [q2, mul_zero] at h2
  rw [q3, mul_zero] at h3
  rcases hP with h | h | h
  · exact h ((mul_eq_zero.1 h1).resolve_left ha)
  · exact h ((mul_eq_zero.1 h2).resolve_left ha)
  · exact h ((mul_eq_zero.1 h3).resolve_left ha)

/-- what `reduce` does -/
theorem reduce_spec (P : P2) (hP : NZ P) :
    ∃ k : ℤ, k ≠ 0 ∧ P.X = k * (reduce P).X ∧ P.Y = k * (reduce P).Y ∧ P.Z = k * (reduce P).Z ∧
      Reduced (reduce P) := by
  unfold reduce
  by_cases h1 : P.Z = 1
  · rw [if_pos h1]
    exact ⟨1, one_ne_zero, by ring, by ring, by ring, by rw [h1]; simp, by omega⟩
  rw [if_neg h1]
  obtain ⟨d, hd⟩ : ∃ d : ℕ, d = Int.gcd (Int.gcd P.X P.Y) P.Z := ⟨_, rfl⟩
  have hdpos : 0 < d := by
    rcases Nat.eq_zero_or_pos d with h | h
    · exfalso
      rw [h] at hd
      have := Int.gcd_eq_zero_iff.1 hd.symm
      have h2 : Int.gcd P.X P.Y = 0 := by exact_mod_cast this.1
      have h3 := Int.gcd_eq_zero_iff.1 h2
      rcases hP with h | h | h
      · exact h h3.1
      · exact h h3.2
      · exact h this.2
    · exact h
  have hd0 : (d : ℤ) ≠ 0 := by omega
  have dX : (d : ℤ) ∣ P.X := by
    rw [hd]; exact dvd_trans (Int.gcd_dvd_left _ _) (Int.gcd_dvd_left _ _)
  have dY : (d : ℤ) ∣ P.Y := by
    rw [hd]; exact dvd_trans (Int.gcd_dvd_left _ _) (Int.gcd_dvd_right _ _)
  have dZ : (d : ℤ) ∣ P.Z := by
    rw [hd]; exact Int.gcd_dvd_right _ _
  simp only [← hd]
  rw [if_neg (by rw [Int.sign_eq_zero_iff_zero]; exact hd0)]
  obtain ⟨x, hx⟩ := dX
  obtain ⟨y, hy⟩ := dY
  obtain ⟨z, hz⟩ := dZ
  have hQ : (if (d : ℤ) ≠ 1 then (⟨P.X.fdiv d, P.Y.fdiv d, P.Z.fdiv d⟩ : P2) else P) = ⟨x, y, z⟩ := by
    split_ifs with h
    · rw [fdiv_eq hd0 hx, fdiv_eq hd0 hy, fdiv_eq hd0 hz]
    · push Not at h
      obtain ⟨X, Y, Z⟩ := P
      dsimp only at hx hy hz
      rw [h, one_mul] at hx hy hz
      rw [hx, hy, hz]
  rw [hQ]
  have hg : Int.gcd (Int.gcd x y) z = 1 := by
    have : d * Int.gcd (Int.gcd x y) z = d * 1 := by
      rw [mul_one]
      conv_rhs => rw [hd, hx, hy, hz]
      rw [Int.gcd_mul_left, Int.natAbs_natCast]
      push_cast
      rw [Int.gcd_mul_left, Int.natAbs_natCast]
    exact Nat.eq_of_mul_eq_mul_left hdpos this
  simp only [Int.sign_neg_iff]
  by_cases hneg : z < 0
  · rw [if_pos hneg]
    refine ⟨-d, by omega, by rw [hx]; ring, by rw [hy]; ring, by rw [hz]; ring, ?_, by
      change 0 ≤ -z; omega⟩
    simp only [Int.gcd_neg, Int.neg_gcd]
    exact hg
  · rw [if_neg hneg]
    exact ⟨d, hd0, hx, hy, hz, hg, by change 0 ≤ z; omega⟩

theorem same_reduce {P : P2} (hP : NZ P) : Same (reduce P) P := by
  obtain ⟨k, hk, h1, h2, h3, -⟩ := reduce_spec P hP
  exact ⟨k, 1, hk, one_ne_zero, by rw [h1]; ring, by rw [h2]; ring, by rw [h3]; ring⟩

theorem reduced_reduce {P : P2} (hP : NZ P) : Reduced (reduce P) := by
  obtain ⟨k, hk, h1, h2, h3, h⟩ := reduce_spec P hP
  exact h

theorem Reduced.nz {P : P2} (h : Reduced P) : NZ P := by
  by_contra hn
  unfold NZ at hn
  push Not at hn
  obtain ⟨h1, h2, h3⟩ := hn
  have := h.1
  rw [h1, h2, h3] at this
  simp at this

theorem eq_iff_cross (P Q : P2) : eq P Q = true ↔ P.X * Q.Z = P.Z * Q.X ∧ P.Y * Q.Z = P.Z * Q.Y ∧
    P.Y * Q.X = P.X * Q.Y := by
  unfold eq
  simp only [ne_eq, Int.sign_eq_zero_iff_zero, sub_eq_zero]
  by_cases h1 : P.X * Q.Z = P.Z * Q.X <;> by_cases h2 : P.Y * Q.Z = P.Z * Q.Y <;>
    by_cases h3 : P.Y * Q.X = P.X * Q.Y <;> simp [h1, h2, h3]

theorem cross_iff {P Q : P2} (hP : NZ P) (hQ : NZ Q) :
    (P.X * Q.Z = P.Z * Q.X ∧ P.Y * Q.Z = P.Z * Q.Y ∧ P.Y * Q.X = P.X * Q.Y) ↔ Same P Q := by
  constructor
  · rintro ⟨h1, h2, h3⟩
    rcases hP with h | h | h
    · have : Q.X ≠ 0 := by
        intro h0
        rw [h0, mul_zero] at h1 h3
        have hz := (mul_eq_zero.1 h1).resolve_left h
        have hy := (mul_eq_zero.1 h3.symm).resolve_left h
        rcases hQ with hq | hq | hq
        · exact hq h0
        · exact hq hy
        · exact hq hz
      exact ⟨Q.X, P.X, this, h, by ring, by linear_combination h3, by linear_combination -h1⟩
    · have : Q.Y ≠ 0 := by
        intro h0
        rw [h0, mul_zero] at h2 h3
        have hz := (mul_eq_zero.1 h2).resolve_left h
        have hx := (mul_eq_zero.1 h3).resolve_left h
        rcases hQ with hq | hq | hq
        · exact hq hx
        · exact hq h0
        · exact hq hz
      exact ⟨Q.Y, P.Y, this, h, by linear_combination -h3, by ring, by linear_combination -h2⟩
    · have : Q.Z ≠ 0 := by
        intro h0
        rw [h0, mul_zero] at h1 h2
        have hx := (mul_eq_zero.1 h1.symm).resolve_left h
        have hy := (mul_eq_zero.1 h2.symm).resolve_left h
        rcases hQ with hq | hq | hq
        · exact hq hx
        · exact hq hy
        · exact hq h0
      exact ⟨Q.Z, P.Z, this, h, by linear_combination h1, by linear_combination h2, by ring⟩
  · rintro ⟨a, b, ha, hb, h1, h2, h3⟩
    refine ⟨?_, ?_, ?_⟩
    · apply mul_left_cancel₀ ha
      apply mul_left_cancel₀ hb
      linear_combination b * Q.Z * h1 - b * Q.X * h3
    · apply mul_left_cancel₀ ha
      apply mul_left_cancel₀ hb
      linear_combination b * Q.Z * h2 - b * Q.Y * h3
    · apply mul_left_cancel₀ ha
      apply mul_left_cancel₀ hb
      linear_combination b * Q.X * h2 - b * Q.Y * h1

theorem eq_iff_same {P Q : P2} (hP : NZ P) (hQ : NZ Q) : eq P Q = true ↔ Same P Q := by
  rw [eq_iff_cross, cross_iff hP hQ]

theorem gcd3_dvd {P : P2} (h : Int.gcd (Int.gcd P.X P.Y) P.Z = 1) {b : ℤ} (hx : b ∣ P.X)
    (hy : b ∣ P.Y) (hz : b ∣ P.Z) : IsUnit b := by
  have : b ∣ ((Int.gcd (Int.gcd P.X P.Y) P.Z : ℕ) : ℤ) :=
    Int.dvd_coe_gcd (Int.dvd_coe_gcd hx hy) hz
  rw [h] at this
  exact isUnit_of_dvd_one (by simpa using this)

/-- reduced triples of the same projective point agree up to sign, and agree if `Z ≠ 0` -/
theorem Reduced.same {P Q : P2} (hP : Reduced P) (hQ : Reduced Q) (h : Same P Q) :
    P = Q ∨ (P.Z = 0 ∧ Q.Z = 0 ∧ P.X = -Q.X ∧ P.Y = -Q.Y) := by
  obtain ⟨a, b, ha, hb, h1, h2, h3⟩ := h
  -- make a, b coprime
  obtain ⟨g, a', b', hg, hco, rfl, rfl⟩ : ∃ g a' b' : ℤ, g ≠ 0 ∧ IsCoprime a' b' ∧ a = g * a' ∧ b = g * b' := by
    obtain ⟨a', b', hco, h1, h2⟩ := Int.exists_gcd_one (m := a) (n := b) (Int.gcd_pos_of_ne_zero_left _ ha)
    refine ⟨Int.gcd a b, a', b', ?_, Int.isCoprime_iff_gcd_eq_one.2 hco, by rw [mul_comm]; exact h1, by rw [mul_comm]; exact h2⟩
    have := Int.gcd_pos_of_ne_zero_left b ha
    omega
  simp only [mul_assoc] at h1 h2 h3
  have h1 := mul_left_cancel₀ hg h1
  have h2 := mul_left_cancel₀ hg h2
  have h3 := mul_left_cancel₀ hg h3
  have ua : IsUnit a' := gcd3_dvd hQ.1 (hco.dvd_of_dvd_mul_left ⟨_, h1.symm⟩)
    (hco.dvd_of_dvd_mul_left ⟨_, h2.symm⟩) (hco.dvd_of_dvd_mul_left ⟨_, h3.symm⟩)
  have ub : IsUnit b' := gcd3_dvd hP.1 (hco.symm.dvd_of_dvd_mul_left ⟨_, h1⟩)
    (hco.symm.dvd_of_dvd_mul_left ⟨_, h2⟩) (hco.symm.dvd_of_dvd_mul_left ⟨_, h3⟩)
  have z1 := hP.2
  have z2 := hQ.2
  obtain ⟨X, Y, Z⟩ := P
  obtain ⟨X', Y', Z'⟩ := Q
  simp only [P2.mk.injEq] at *
  rcases Int.isUnit_iff.1 ua with rfl | rfl <;> rcases Int.isUnit_iff.1 ub with rfl | rfl <;> omega

end P2

namespace Props

open P2

/-- C34: `reduce` returns coprime coordinates with `Z ≥ 0` for the same projective point. -/
theorem C34_reduce (P : P2) (h : P.X ≠ 0 ∨ P.Y ≠ 0 ∨ P.Z ≠ 0) :
    Int.gcd (Int.gcd (reduce P).X (reduce P).Y) (reduce P).Z = 1 ∧ 0 ≤ (reduce P).Z ∧
    ∃ k : ℤ, k ≠ 0 ∧ P.X = k * (reduce P).X ∧ P.Y = k * (reduce P).Y ∧ P.Z = k * (reduce P).Z := by
  obtain ⟨k, hk, h1, h2, h3, h4, h5⟩ := reduce_spec P h
  exact ⟨h4, h5, k, hk, h1, h2, h3⟩

/-- C34: `(0:0:0)` is left alone -/
theorem C34_reduce_zero : reduce ⟨0, 0, 0⟩ = ⟨0, 0, 0⟩ := by decide

/-- C34: equality by cross-products is equality of projective points -/
theorem C34_eq (P Q : P2) (hP : P.X ≠ 0 ∨ P.Y ≠ 0 ∨ P.Z ≠ 0) (hQ : Q.X ≠ 0 ∨ Q.Y ≠ 0 ∨ Q.Z ≠ 0) :
    eq P Q = true ↔ ∃ q : ℚ, q ≠ 0 ∧ (P.X : ℚ) = q * Q.X ∧ (P.Y : ℚ) = q * Q.Y ∧ (P.Z : ℚ) = q * Q.Z := by
  rw [eq_iff_same hP hQ]
  constructor
  · rintro ⟨a, b, ha, hb, h1, h2, h3⟩
    have ha' : (a : ℚ) ≠ 0 := by exact_mod_cast ha
    have hb' : (b : ℚ) ≠ 0 := by exact_mod_cast hb
    have h1 : (a : ℚ) * P.X = b * Q.X := by exact_mod_cast h1
    have h2 : (a : ℚ) * P.Y = b * Q.Y := by exact_mod_cast h2
    have h3 : (a : ℚ) * P.Z = b * Q.Z := by exact_mod_cast h3
    refine ⟨b / a, div_ne_zero hb' ha', ?_, ?_, ?_⟩ <;> field_simp <;> linarith
  · rintro ⟨q, hq, h1, h2, h3⟩
    have hqd : q * (q.den : ℚ) = q.num := Rat.mul_den_eq_num q
    refine ⟨q.den, q.num, by exact_mod_cast q.den_nz, by rwa [Rat.num_ne_zero], ?_, ?_, ?_⟩
    · have : ((q.den : ℤ) : ℚ) * P.X = q.num * Q.X := by rw [← hqd, h1]; push_cast; ring
      exact_mod_cast this
    · have : ((q.den : ℤ) : ℚ) * P.Y = q.num * Q.Y := by rw [← hqd, h2]; push_cast; ring
      exact_mod_cast this
    · have : ((q.den : ℤ) : ℚ) * P.Z = q.num * Q.Z := by rw [← hqd, h3]; push_cast; ring
      exact_mod_cast this

/-- C34: two reduced points with `Z ≠ 0` are equal as projective points exactly when their
coordinates agree. -/
theorem C34_unique (P Q : P2) (hP : P.Z ≠ 0) (hQ : Q.X ≠ 0 ∨ Q.Y ≠ 0 ∨ Q.Z ≠ 0) :
    eq P Q = true ↔ reduce P = reduce Q := by
  have hP' : NZ P := Or.inr (Or.inr hP)
  rw [eq_iff_same hP' hQ]
  constructor
  · intro h
    rcases Reduced.same (reduced_reduce hP') (reduced_reduce hQ)
      ((same_reduce hP').trans (h.trans (same_reduce hQ).symm)) with h | h
    · exact h
    · exfalso
      obtain ⟨k, hk, -, -, h3, -⟩ := reduce_spec P hP'
      rw [h.1, mul_zero] at h3
      exact hP h3
  · intro h
    exact (same_reduce hP').symm.trans (h ▸ same_reduce hQ)

/-- C34: for `Z = 0` the normal form is only unique up to sign -/
theorem C34_infinity_not_unique : eq ⟨0, 1, 0⟩ ⟨0, -1, 0⟩ = true ∧
    reduce ⟨0, 1, 0⟩ = ⟨0, 1, 0⟩ ∧ reduce ⟨0, -1, 0⟩ = ⟨0, -1, 0⟩ := by decide

example : reduce ⟨6, -10, -4⟩ = ⟨-3, 5, 2⟩ ∧ eq ⟨6, -10, -4⟩ ⟨-9, 15, 6⟩ = true := by decide +kernel

end Props

/-! ## C35: changes of coordinates -/

namespace P2

/-- the homogeneous Weierstrass equation -/
def OnE (E : Cv) (P : P2) : Prop :=
  P.Y ^ 2 * P.Z + E.a1 * P.X * P.Y * P.Z + E.a3 * P.Y * P.Z ^ 2 =
    P.X ^ 3 + E.a2 * P.X ^ 2 * P.Z + E.a4 * P.X * P.Z ^ 2 + E.a6 * P.Z ^ 3

theorem isvalid_iff (E : Cv) (P : P2) : isvalid E P = true ↔ NZ P ∧ OnE E P := by
  unfold isvalid NZ OnE
  simp only [Int.sign_eq_zero_iff_zero, Bool.and_eq_true, decide_eq_true_iff]
  by_cases hx : P.X = 0 <;> by_cases hz : P.Z = 0 <;> by_cases hy : P.Y = 0 <;>
    simp [hx, hy, hz]
  all_goals first
    | (intro h; exact hx (pow_eq_zero_iff (by norm_num) |>.1 h.symm))
    | (constructor <;> intro h <;> linear_combination h)

theorem OnE.same {E : Cv} {P Q : P2} (h : Same P Q) : OnE E P ↔ OnE E Q := by
  obtain ⟨a, b, ha, hb, h1, h2, h3⟩ := h
  have e : ∀ R : P2, ∀ c : ℤ, c ≠ 0 → (OnE E R ↔ OnE E ⟨c * R.X, c * R.Y, c * R.Z⟩) := by
    intro R c hc
    unfold OnE
    constructor
    · intro h; linear_combination c ^ 3 * h
    · intro h
      apply mul_left_cancel₀ (pow_ne_zero 3 hc)
      linear_combination h
  rw [e P a ha, e Q b hb, h1, h2, h3]

theorem Same.shiftNZ {P : P2} (hP : NZ P) (r s t : ℤ) :
    NZ ⟨P.X + r * P.Z, P.Y + s * P.X + t * P.Z, P.Z⟩ := by
  unfold NZ
  dsimp only
  by_contra h
  push Not at h
  obtain ⟨h1, h2, h3⟩ := h
  rw [h3] at h1 h2
  have hx : P.X = 0 := by simpa using h1
  rw [hx] at h2
  have hy : P.Y = 0 := by simpa using h2
  rcases hP with h | h | h
  · exact h hx
  · exact h hy
  · exact h h3

theorem nz_scale {P : P2} (hP : NZ P) {a b c : ℤ} (ha : a ≠ 0) (hb : b ≠ 0) (hc : c ≠ 0) :
    NZ ⟨a * P.X, b * P.Y, c * P.Z⟩ := by
  rcases hP with h | h | h
  · exact Or.inl (mul_ne_zero ha h)
  · exact Or.inr (Or.inl (mul_ne_zero hb h))
  · exact Or.inr (Or.inr (mul_ne_zero hc h))

theorem scale_same {P : P2} (hP : NZ P) {u : ℤ} (hu : u ≠ 0) :
    Same (scale P u true) ⟨u ^ 2 * P.X, u ^ 3 * P.Y, P.Z⟩ ∧ NZ (scale P u true) ∧
    Same (scale P u false) ⟨u * P.X, P.Y, u ^ 3 * P.Z⟩ ∧ NZ (scale P u false) := by
  have n1 : NZ ⟨u ^ 2 * P.X, u ^ 3 * P.Y, P.Z⟩ := by
    have := nz_scale hP (pow_ne_zero 2 hu) (pow_ne_zero 3 hu) one_ne_zero
    rwa [one_mul] at this
  have n2 : NZ ⟨u * P.X, P.Y, u ^ 3 * P.Z⟩ := by
    have := nz_scale hP hu one_ne_zero (pow_ne_zero 3 hu)
    rwa [one_mul] at this
  have e2 : u * u = u ^ 2 := by ring
  have e3 : u * u ^ 2 = u ^ 3 := by ring
  unfold scale mk'
  by_cases h1 : u = 1
  · subst h1
    simp only [if_true, one_pow, one_mul]
    exact ⟨Same.refl _, hP, Same.refl _, hP⟩
  · simp only [if_neg h1, e2, e3, if_true, Bool.false_eq_true, if_false]
    exact ⟨same_reduce n1, (same_reduce n1).symm.nz n1, same_reduce n2, (same_reduce n2).symm.nz n2⟩

theorem shift_same {P : P2} (hP : NZ P) (r s t : ℤ) :
    Same (shift P r s t true) ⟨P.X + r * P.Z, P.Y + s * P.X + t * P.Z, P.Z⟩ ∧
    NZ (shift P r s t true) ∧
    Same (shift P r s t false) ⟨P.X - r * P.Z, P.Y - s * P.X + (r * s - t) * P.Z, P.Z⟩ ∧
    NZ (shift P r s t false) := by
  have n1 := Same.shiftNZ hP r s t
  have n2 : NZ ⟨P.X - r * P.Z, P.Y - s * P.X + (r * s - t) * P.Z, P.Z⟩ := by
    have := Same.shiftNZ hP (-r) (-s) (r * s - t)
    have e : (⟨P.X + -r * P.Z, P.Y + -s * P.X + (r * s - t) * P.Z, P.Z⟩ : P2) =
      ⟨P.X - r * P.Z, P.Y - s * P.X + (r * s - t) * P.Z, P.Z⟩ := by
      congr 1 <;> ring
    rwa [e] at this
  unfold shift mk'
  simp only [if_true, Bool.false_eq_true, if_false]
  exact ⟨same_reduce n1, (same_reduce n1).symm.nz n1, same_reduce n2, (same_reduce n2).symm.nz n2⟩

theorem Same.lin {P Q : P2} (h : Same P Q) (a b c d e f g : ℤ) :
    Same ⟨a * P.X + b * P.Z, c * P.Y + d * P.X + e * P.Z, f * P.Z + g * P.Z⟩
      ⟨a * Q.X + b * Q.Z, c * Q.Y + d * Q.X + e * Q.Z, f * Q.Z + g * Q.Z⟩ := by
  obtain ⟨m, n, hm, hn, h1, h2, h3⟩ := h
  exact ⟨m, n, hm, hn, by linear_combination a * h1 + b * h3,
    by linear_combination c * h2 + d * h1 + e * h3, by linear_combination (f + g) * h3⟩

/-- a linear map respects sameness -/
theorem Same.map {P Q R S : P2} (h : Same P Q) (a b c d e f : ℤ)
    (hR : R = ⟨a * P.X + b * P.Z, c * P.Y + d * P.X + e * P.Z, f * P.Z⟩)
    (hS : S = ⟨a * Q.X + b * Q.Z, c * Q.Y + d * Q.X + e * Q.Z, f * Q.Z⟩) : Same R S := by
  subst hR hS
  have := Same.lin h a b c d e f 0
  simpa using this

theorem transform_same {P : P2} (hP : NZ P) {u : ℤ} (hu : u ≠ 0) (r s t : ℤ) :
    Same (transform P u r s t false)
      ⟨u * (P.X - r * P.Z), P.Y - s * P.X + (r * s - t) * P.Z, u ^ 3 * P.Z⟩ ∧
    NZ (transform P u r s t false) ∧
    Same (transform P u r s t true)
      ⟨u ^ 2 * P.X + r * P.Z, u ^ 3 * P.Y + s * (u ^ 2 * P.X) + t * P.Z, P.Z⟩ ∧
    NZ (transform P u r s t true) := by
  obtain ⟨-, -, a1, a2⟩ := shift_same hP r s t
  obtain ⟨-, -, b1, b2⟩ := scale_same a2 hu
  obtain ⟨c1, c2, -, -⟩ := scale_same hP hu
  obtain ⟨d1, d2, -, -⟩ := shift_same c2 r s t
  unfold transform
  simp only [if_true, Bool.false_eq_true, if_false]
  refine ⟨b1.trans ?_, b2, d1.trans ?_, d2⟩
  · refine a1.map u 0 1 0 0 (u ^ 3) ?_ ?_ <;> · congr 1 <;> ring
  · refine c1.map 1 r 1 s t 1 ?_ ?_ <;> · congr 1 <;> ring

end P2

namespace Props

open P2

/-- C35: `scale` there and back gives the same projective point -/
theorem C35_scale (P : P2) (hP : NZ P) (u : ℤ) (hu : u ≠ 0) :
    eq (scale (scale P u false) u true) P = true ∧ eq (scale (scale P u true) u false) P = true := by
  obtain ⟨a1, a2, a3, a4⟩ := scale_same hP hu
  obtain ⟨b1, b2, -, -⟩ := scale_same a4 hu
  obtain ⟨-, -, c1, c2⟩ := scale_same a2 hu
  rw [eq_iff_same b2 hP, eq_iff_same c2 hP]
  constructor
  · refine (b1.trans (a3.map (u ^ 2) 0 (u ^ 3) 0 0 1 (by congr 1 <;> ring) rfl)).trans ?_
    exact ⟨1, u ^ 3, one_ne_zero, pow_ne_zero 3 hu, by ring, by ring, by ring⟩
  · refine (c1.trans (a1.map u 0 1 0 0 (u ^ 3) (by congr 1 <;> ring) rfl)).trans ?_
    exact ⟨1, u ^ 3, one_ne_zero, pow_ne_zero 3 hu, by ring, by ring, by ring⟩

/-- C35: `shift` there and back gives the same projective point -/
theorem C35_shift (P : P2) (hP : NZ P) (r s t : ℤ) :
    eq (shift (shift P r s t false) r s t true) P = true ∧
    eq (shift (shift P r s t true) r s t false) P = true := by
  obtain ⟨a1, a2, a3, a4⟩ := shift_same hP r s t
  obtain ⟨b1, b2, -, -⟩ := shift_same a4 r s t
  obtain ⟨-, -, c1, c2⟩ := shift_same a2 r s t
  rw [eq_iff_same b2 hP, eq_iff_same c2 hP]
  constructor
  · refine (b1.trans (a3.map 1 r 1 s t 1 (by congr 1 <;> ring) rfl)).trans ?_
    exact ⟨1, 1, one_ne_zero, one_ne_zero, by ring, by ring, by ring⟩
  · refine (c1.trans (a1.map 1 (-r) 1 (-s) (r * s - t) 1 (by congr 1 <;> ring) rfl)).trans ?_
    exact ⟨1, 1, one_ne_zero, one_ne_zero, by ring, by ring, by ring⟩

/-- C35: `transform` there and back gives the same projective point -/
theorem C35_transform (P : P2) (hP : NZ P) (u r s t : ℤ) (hu : u ≠ 0) :
    eq (transform (transform P u r s t false) u r s t true) P = true ∧
    eq (transform (transform P u r s t true) u r s t false) P = true := by
  obtain ⟨a1, a2, a3, a4⟩ := transform_same hP hu r s t
  obtain ⟨-, -, b1, b2⟩ := transform_same a2 hu r s t
  obtain ⟨c1, c2, -, -⟩ := transform_same a4 hu r s t
  rw [eq_iff_same b2 hP, eq_iff_same c2 hP]
  constructor
  · refine (b1.trans (a1.map (u ^ 2) r (u ^ 3) (s * u ^ 2) t 1 (by congr 1 <;> ring) rfl)).trans ?_
    exact ⟨1, u ^ 3, one_ne_zero, pow_ne_zero 3 hu, by ring, by ring, by ring⟩
  · refine (c1.trans (a3.map u (-u * r) 1 (-s) (r * s - t) (u ^ 3) (by congr 1 <;> ring) rfl)).trans ?_
    exact ⟨1, u ^ 3, one_ne_zero, pow_ne_zero 3 hu, by ring, by ring, by ring⟩

/-- C35: `transform` takes the affine point `(x, y)` to `((x - r)/u², (y - s(x - r) - t)/u³)`, and
back the other way. -/
theorem C35_affine (P : P2) (hZ : P.Z ≠ 0) (u r s t : ℤ) (hu : u ≠ 0) :
    (transform P u r s t false).Z ≠ 0 ∧
    ((transform P u r s t false).X : ℚ) / (transform P u r s t false).Z = (P.X / P.Z - r) / u ^ 2 ∧
    ((transform P u r s t false).Y : ℚ) / (transform P u r s t false).Z =
      (P.Y / P.Z - s * (P.X / P.Z - r) - t) / u ^ 3 ∧
    (transform P u r s t true).Z ≠ 0 ∧
    ((transform P u r s t true).X : ℚ) / (transform P u r s t true).Z = u ^ 2 * (P.X / P.Z) + r ∧
    ((transform P u r s t true).Y : ℚ) / (transform P u r s t true).Z =
      u ^ 3 * (P.Y / P.Z) + s * (u ^ 2 * (P.X / P.Z)) + t := by
  have key : ∀ R S : P2, Same R S → S.Z ≠ 0 →
      R.Z ≠ 0 ∧ (R.X : ℚ) / R.Z = S.X / S.Z ∧ (R.Y : ℚ) / R.Z = S.Y / S.Z := by
    rintro R S ⟨a, b, ha, hb, h1, h2, h3⟩ hS
    have hR : R.Z ≠ 0 := by
      intro h0; rw [h0, mul_zero] at h3
      exact (mul_ne_zero hb hS) h3.symm
    have ha' : (a : ℚ) ≠ 0 := by exact_mod_cast ha
    have hb' : (b : ℚ) ≠ 0 := by exact_mod_cast hb
    have hS' : (S.Z : ℚ) ≠ 0 := by exact_mod_cast hS
    have hR' : (R.Z : ℚ) ≠ 0 := by exact_mod_cast hR
    have h1 : (a : ℚ) * R.X = b * S.X := by exact_mod_cast h1
    have h2 : (a : ℚ) * R.Y = b * S.Y := by exact_mod_cast h2
    have h3 : (a : ℚ) * R.Z = b * S.Z := by exact_mod_cast h3
    refine ⟨hR, ?_, ?_⟩
    · rw [div_eq_div_iff hR' hS']
      apply mul_left_cancel₀ ha'
      apply mul_left_cancel₀ hb'
      linear_combination b * S.Z * h1 - b * S.X * h3
    · rw [div_eq_div_iff hR' hS']
      apply mul_left_cancel₀ ha'
      apply mul_left_cancel₀ hb'
      linear_combination b * S.Z * h2 - b * S.Y * h3
  obtain ⟨a1, a2, a3, a4⟩ := transform_same (Or.inr (Or.inr hZ)) hu r s t
  obtain ⟨b1, b2, b3⟩ := key _ _ a1 (mul_ne_zero (pow_ne_zero 3 hu) hZ)
  obtain ⟨c1, c2, c3⟩ := key _ _ a3 hZ
  have hZ' : (P.Z : ℚ) ≠ 0 := by exact_mod_cast hZ
  have hu' : (u : ℚ) ≠ 0 := by exact_mod_cast hu
  refine ⟨b1, ?_, ?_, c1, ?_, ?_⟩
  · rw [b2]; push_cast; field_simp
  · rw [b3]; push_cast; field_simp; ring
  · rw [c2]; push_cast; field_simp
  · rw [c3]; push_cast; field_simp

/-- C35: if `E'` is obtained from `E` by the change of variables `(u, r, s, t)` (the relations of
C30), then `transform` maps the points of `E` to those of `E'` and back. -/
theorem C35_on_curve (E E' : Cv) (P : P2) (hP : NZ P) (u r s t : ℤ) (hu : u ≠ 0)
    (h1 : u * E'.a1 = E.a1 + 2 * s)
    (h2 : u ^ 2 * E'.a2 = E.a2 - s * E.a1 + 3 * r - s ^ 2)
    (h3 : u ^ 3 * E'.a3 = E.a3 + r * E.a1 + 2 * t)
    (h4 : u ^ 4 * E'.a4 = E.a4 - s * E.a3 + 2 * r * E.a2 - (t + r * s) * E.a1 + 3 * r ^ 2 - 2 * s * t)
    (h6 : u ^ 6 * E'.a6 = E.a6 + r * E.a4 + r ^ 2 * E.a2 + r ^ 3 - t * E.a3 - t ^ 2 - r * t * E.a1) :
    (isvalid E P = true ↔ isvalid E' (transform P u r s t false) = true) ∧
    (isvalid E' P = true ↔ isvalid E (transform P u r s t true) = true) := by
  obtain ⟨a1, a2, a3, a4⟩ := transform_same hP hu r s t
  simp only [isvalid_iff, hP, a2, a4, true_and]
  rw [OnE.same a1, OnE.same a3]
  unfold OnE
  dsimp only
  generalize P.X = X
  generalize P.Y = Y
  generalize P.Z = Z
  constructor
  · have key : (Y - s * X + (r * s - t) * Z) ^ 2 * (u ^ 3 * Z)
        + E'.a1 * (u * (X - r * Z)) * (Y - s * X + (r * s - t) * Z) * (u ^ 3 * Z)
        + E'.a3 * (Y - s * X + (r * s - t) * Z) * (u ^ 3 * Z) ^ 2
        - ((u * (X - r * Z)) ^ 3 + E'.a2 * (u * (X - r * Z)) ^ 2 * (u ^ 3 * Z)
          + E'.a4 * (u * (X - r * Z)) * (u ^ 3 * Z) ^ 2 + E'.a6 * (u ^ 3 * Z) ^ 3) =
        u ^ 3 * (Y ^ 2 * Z + E.a1 * X * Y * Z + E.a3 * Y * Z ^ 2 -
          (X ^ 3 + E.a2 * X ^ 2 * Z + E.a4 * X * Z ^ 2 + E.a6 * Z ^ 3)) := by
      linear_combination u ^ 3 * ((X - r * Z) * (Y - s * X + (r * s - t) * Z) * Z * h1
        + (Y - s * X + (r * s - t) * Z) * Z ^ 2 * h3 - (X - r * Z) ^ 2 * Z * h2
        - (X - r * Z) * Z ^ 2 * h4 - Z ^ 3 * h6)
    constructor
    · intro h
      rw [← sub_eq_zero, key, h]; ring
    · intro h
      rw [← sub_eq_zero] at h ⊢
      rw [key] at h
      exact (mul_eq_zero.1 h).resolve_left (pow_ne_zero 3 hu)
  · have key : (u ^ 3 * Y + s * (u ^ 2 * X) + t * Z) ^ 2 * Z
        + E.a1 * (u ^ 2 * X + r * Z) * (u ^ 3 * Y + s * (u ^ 2 * X) + t * Z) * Z
        + E.a3 * (u ^ 3 * Y + s * (u ^ 2 * X) + t * Z) * Z ^ 2
        - ((u ^ 2 * X + r * Z) ^ 3 + E.a2 * (u ^ 2 * X + r * Z) ^ 2 * Z
          + E.a4 * (u ^ 2 * X + r * Z) * Z ^ 2 + E.a6 * Z ^ 3) =
        u ^ 6 * (Y ^ 2 * Z + E'.a1 * X * Y * Z + E'.a3 * Y * Z ^ 2 -
          (X ^ 3 + E'.a2 * X ^ 2 * Z + E'.a4 * X * Z ^ 2 + E'.a6 * Z ^ 3)) := by
      linear_combination -(u ^ 5 * X * Y * Z * h1 + u ^ 3 * Y * Z ^ 2 * h3 - u ^ 4 * X ^ 2 * Z * h2
        - u ^ 2 * X * Z ^ 2 * h4 - Z ^ 3 * h6)
    constructor
    · intro h
      rw [← sub_eq_zero, key, h]; ring
    · intro h
      rw [← sub_eq_zero] at h ⊢
      rw [key] at h
      exact (mul_eq_zero.1 h).resolve_left (pow_ne_zero 6 hu)

/-- a point of 11a1 moved by `(u, r, s, t) = (2, 1, 1, -1)` and back -/
example : transform ⟨5, 5, 1⟩ 2 1 1 (-1) false = ⟨4, 1, 4⟩ ∧
    transform ⟨4, 1, 4⟩ 2 1 1 (-1) true = ⟨5, 5, 1⟩ := by decide +kernel

end Props

end Eclib.Curve
