import Mathlib.NumberTheory.LegendreSymbol.Basic
import Mathlib.Algebra.BigOperators.Intervals
import Verif.Marith.Props
import Verif.Pmod.LegModel
import Verif.Pmod.IsoCases

/-!
# C70: points with given x-coordinate, counting points, points of order 2
-/

namespace Eclib.Pmod

open Marith (SqrRootMod)
open WeierstrassCurve

set_option linter.unusedSectionVars false

variable {p : ℕ} [Fact p.Prime]

theorem two_ne_zero_zmod (hp : p ≠ 2) : (2 : ZMod p) ≠ 0 := by
  intro h
  have h1 : ((2 : ℕ) : ZMod p) = 0 := by exact_mod_cast h
  rw [ZMod.natCast_eq_zero_iff] at h1
  exact hp ((Nat.prime_dvd_prime_iff_eq Fact.out Nat.prime_two).1 h1)

/-- `legendre(rep(d), q)` is the quadratic character -/
theorem legendre_val (hp : p ≠ 2) (d : ZMod p) :
    Marith.legendre d.val p = some (legendreSym p (d.val : ℤ)) := by
  have hodd : Odd p := (Fact.out (p := p.Prime)).odd_of_ne_two hp
  rw [Marith.Props.C05_legendre_big _ p hodd, ← jacobiSym.legendreSym.to_jacobiSym]

theorem val_cast (d : ZMod p) : ((d.val : ℤ) : ZMod p) = d := by
  rw [Int.cast_natCast, ZMod.natCast_val, ZMod.cast_id', id_eq]

theorem legendre_neg_one (d : ZMod p) :
    legendreSym p (d.val : ℤ) = -1 ↔ ¬ IsSquare d := by
  rw [legendreSym.eq_neg_one_iff, val_cast]

theorem gfSqrt_spec (hp : p ≠ 2) (S : SqrRootMod) (d : ZMod p) (h : IsSquare d) :
    gfSqrt S d ^ 2 = d := by
  have hs := S.spec d.val p Fact.out hp (by omega) (by exact_mod_cast ZMod.val_lt d)
    (by rw [val_cast]; exact h)
  have h1 : ((S.run d.val p : ℤ) : ZMod p) ^ 2 = d := by
    have := (ZMod.intCast_zmod_eq_zero_iff_dvd _ p).2 hs
    push_cast at this
    rw [sub_eq_zero] at this
    rw [this]
    exact_mod_cast val_cast d
  unfold gfSqrt Marith.sqrtModP
  simp only []
  split_ifs
  · push_cast
    rw [ZMod.natCast_self, zero_sub, neg_sq, h1]
  · exact h1

/-- the equation of the curve after completing the square -/
theorem equation_disc (hp : p ≠ 2) (E : WeierstrassCurve (ZMod p)) (x y : ZMod p) :
    E.toAffine.Equation x y ↔ (2 * y + (E.a₁ * x + E.a₃)) ^ 2 = discY E x := by
  have h2 := two_ne_zero_zmod hp
  rw [Affine.equation_iff, ← sub_eq_zero, ← sub_eq_zero (a := (2 * y + (E.a₁ * x + E.a₃)) ^ 2)]
  have e : (2 * y + (E.a₁ * x + E.a₃)) ^ 2 - discY E x =
      2 ^ 2 * (y ^ 2 + E.a₁ * x * y + E.a₃ * y - (x ^ 3 + E.a₂ * x ^ 2 + E.a₄ * x + E.a₆)) := by
    unfold discY
    ring
  rw [e, mul_eq_zero]
  constructor
  · exact Or.inr
  · exact fun h => h.resolve_left (pow_ne_zero 2 h2)

/-- **C70 (set_x_coordinate).** For odd `q`: the function succeeds exactly when the curve has a point
with this x-coordinate, and then gives such a point; otherwise it gives the point at infinity.  The
error exit is not taken. -/
theorem C70_set_x (hp : p ≠ 2) (S : SqrRootMod) (E : WeierstrassCurve (ZMod p)) (x : ZMod p) :
    (∃ y, setX S E x = some (true, .pt x y) ∧ E.toAffine.Equation x y) ∨
    (setX S E x = some (false, .oo) ∧ ∀ y, ¬ E.toAffine.Equation x y) := by
  unfold setX
  simp only []
  rw [legendre_val hp]
  simp only [legendre_neg_one]
  by_cases h : IsSquare (discY E x)
  · left
    rw [if_neg (not_not.2 h)]
    have h2 := two_ne_zero_zmod hp
    have hy : E.toAffine.Equation x ((gfSqrt S (discY E x) - (E.a₁ * x + E.a₃)) / 2) := by
      rw [equation_disc hp, mul_div_cancel₀ _ h2, sub_add_cancel, gfSqrt_spec hp S _ h]
    refine ⟨_, ?_, hy⟩
    rw [if_neg]
    rw [(onCurve_iff _ _).2 hy]
    decide
  · right
    rw [if_pos h]
    refine ⟨rfl, fun y hy => h ?_⟩
    rw [equation_disc hp] at hy
    exact ⟨_, by rw [← hy, sq]⟩

/-- **C70 (random_point).** For odd `q` the result is a point of the curve other than infinity, and there
is a result as soon as one of the random values is the x-coordinate of a point. -/
theorem C70_random_point (hp : p ≠ 2) (S : SqrRootMod) (E : WeierstrassCurve (ZMod p))
    (xs : List (ZMod p)) :
    (∀ P, randomPoint S E xs = some P → P ≠ .oo ∧ Pq.onCurve E P = true) ∧
    (randomPoint S E xs = none ↔ ∀ x ∈ xs, ∀ y, ¬ E.toAffine.Equation x y) := by
  induction xs with
  | nil => exact ⟨(fun P h => by cases h), by simp [randomPoint]⟩
  | cons x xs ih =>
    rcases C70_set_x hp S E x with ⟨y, h1, h2⟩ | ⟨h1, h2⟩
    · have e : randomPoint S E (x :: xs) = some (.pt x y) := by rw [randomPoint, h1]
      rw [e]
      constructor
      · intro P hP
        cases hP
        exact ⟨(fun h => by cases h), (onCurve_iff _ _).2 h2⟩
      · constructor
        · intro h; cases h
        · intro h
          exact absurd h2 (h x List.mem_cons_self y)
    · have e : randomPoint S E (x :: xs) = randomPoint S E xs := by rw [randomPoint, h1]
      rw [e]
      refine ⟨ih.1, ih.2.trans ?_⟩
      constructor
      · intro h z hz
        rcases List.mem_cons.1 hz with rfl | hz
        · exact h2
        · exact h z hz
      · intro h z hz
        exact h z (List.mem_cons_of_mem _ hz)

/-! ### counting -/

instance (E : WeierstrassCurve (ZMod p)) (x y : ZMod p) : Decidable (E.toAffine.Equation x y) :=
  decidable_of_iff _ (Affine.equation_iff _ _).symm

/-- number of solutions with a given x-coordinate -/
theorem card_fibre (hp : p ≠ 2) (E : WeierstrassCurve (ZMod p)) (x : ZMod p) :
    (Fintype.card {y : ZMod p // E.toAffine.Equation x y} : ℤ) =
      1 + legendreSym p ((discY E x).val : ℤ) := by
  have h2 := two_ne_zero_zmod hp
  rw [add_comm, ← legendreSym.card_sqrts p hp]
  norm_cast
  rw [Set.toFinset_card]
  refine Fintype.card_congr ?_
  refine ⟨fun y => ⟨2 * y.1 + (E.a₁ * x + E.a₃), ?_⟩,
    fun z => ⟨(z.1 - (E.a₁ * x + E.a₃)) / 2, ?_⟩, ?_, ?_⟩
  · have := (equation_disc hp E x y.1).1 y.2
    rw [Set.mem_ofPred_eq, this]
    exact (ZMod.natCast_zmod_val _).symm
  · rw [equation_disc hp, mul_div_cancel₀ _ h2, sub_add_cancel]
    have := z.2
    rw [Set.mem_ofPred_eq] at this
    rw [this]
    exact ZMod.natCast_zmod_val _
  · intro y
    apply Subtype.ext
    simp only []
    rw [add_sub_cancel_right, mul_div_cancel_left₀ _ h2]
  · intro z
    apply Subtype.ext
    simp only []
    rw [mul_div_cancel₀ _ h2, sub_add_cancel]

/-- the points of the curve: infinity and the solutions of the equation -/
def pointEquiv (E : WeierstrassCurve (ZMod p)) (hE : E.Δ ≠ 0) :
    E.toAffine.Point ≃ Option (Σ x : ZMod p, {y : ZMod p // E.toAffine.Equation x y}) where
  toFun
    | .zero => none
    | .some x y h => some ⟨x, y, h.1⟩
  invFun
    | none => .zero
    | some ⟨x, y, h⟩ => .some x y ((Affine.equation_iff_nonsingular_of_Δ_ne_zero hE).1 h)
  left_inv := by rintro (_ | ⟨x, y, h⟩) <;> rfl
  right_inv := by rintro (_ | ⟨x, y, h⟩) <;> rfl

theorem countLoop_spec (hp : p ≠ 2) (E : WeierstrassCurve (ZMod p)) (n ix : ℕ) (o : ℤ) :
    countLoop E n ix o =
      some (o + ∑ i ∈ Finset.Ico ix (ix + n), (1 + legendreSym p ((discY E (i : ZMod p)).val : ℤ))) := by
  induction n generalizing ix o with
  | zero => simp [countLoop]
  | succ n ih =>
    rw [countLoop, legendre_val hp]
    simp only []
    rw [ih, Finset.sum_eq_sum_Ico_succ_bot (by omega : ix < ix + (n + 1))]
    rw [show ix + 1 + n = ix + (n + 1) by omega, add_assoc]

/-- **C70 (counting).** For odd `q` `set_group_order_via_legendre` computes the number of points of the
curve, infinity included. -/
theorem C70_count (hp : p ≠ 2) (E : WeierstrassCurve (ZMod p)) (hE : E.Δ ≠ 0) :
    countLegendre E = some (Nat.card E.toAffine.Point : ℤ) := by
  unfold countLegendre
  rw [countLoop_spec hp, zero_add]
  congr 1
  rw [Nat.card_congr (pointEquiv E hE), Nat.card_eq_fintype_card, Fintype.card_option,
    Fintype.card_sigma]
  push_cast
  rw [add_comm]
  congr 1
  simp only [card_fibre hp E]
  rw [← Finset.range_eq_Ico]
  have hz : NeZero p := ⟨(Fact.out (p := p.Prime)).ne_zero⟩
  refine Finset.sum_nbij' (fun i : ℕ => (i : ZMod p)) (fun x => x.val) ?_ ?_ ?_ ?_ ?_
  · intro i _; exact Finset.mem_univ _
  · intro x _; exact Finset.mem_range.2 (ZMod.val_lt x)
  · intro i hi; exact ZMod.val_cast_of_lt (Finset.mem_range.1 hi)
  · intro x _; exact ZMod.natCast_zmod_val x
  · intro i _; rfl

/-- the curve with 6 points over F_7 -/
example : countLegendre ex7 = some 6 := by decide +kernel

instance : Fact (Nat.Prime 2) := ⟨Nat.prime_two⟩

/-- **C70 fails for q = 2**: the curves y² + y = x³ and y² + y = x³ + x + 1 have 3 points and 1 point,
but the count is the same for both. -/
theorem C70_count_two :
    (Fintype.card {v : ZMod 2 × ZMod 2 // (⟨0, 0, 1, 0, 0⟩ : WeierstrassCurve (ZMod 2)).toAffine.Equation
      v.1 v.2}) + 1 = 3 ∧
    (Fintype.card {v : ZMod 2 × ZMod 2 // (⟨0, 0, 1, 1, 1⟩ : WeierstrassCurve (ZMod 2)).toAffine.Equation
      v.1 v.2}) + 1 = 1 ∧
    countLegendre (⟨0, 0, 1, 0, 0⟩ : WeierstrassCurve (ZMod 2)) =
      countLegendre (⟨0, 0, 1, 1, 1⟩ : WeierstrassCurve (ZMod 2)) := by
  decide +kernel

instance : Fact (Nat.Prime 3) := ⟨Nat.prime_three⟩

/-- **random_point need not return**: over F_3 the curve y² = x³ + 2x + 2 is non-singular and has no
point other than infinity, so that no random values give a result. -/
theorem C70_random_point_stuck (S : SqrRootMod) (xs : List (ZMod 3)) :
    (⟨0, 0, 0, 2, 2⟩ : WeierstrassCurve (ZMod 3)).Δ ≠ 0 ∧
    randomPoint S (⟨0, 0, 0, 2, 2⟩ : WeierstrassCurve (ZMod 3)) xs = none := by
  refine ⟨by decide +kernel, ((C70_random_point (by decide) S _ xs).2).2 (fun x _ => ?_)⟩
  have h : ∀ x y : ZMod 3, ¬ (⟨0, 0, 0, 2, 2⟩ : WeierstrassCurve (ZMod 3)).toAffine.Equation x y := by
    decide +kernel
  exact h x

/-! ### points of order 2 -/

/-- points with given coordinates killed by 2 -/
theorem two_torsion_iff (hp : p ≠ 2) (E : WeierstrassCurve (ZMod p)) {x y : ZMod p}
    (h : E.toAffine.Nonsingular x y) :
    (Affine.Point.some x y h + Affine.Point.some x y h = 0) ↔ discY E x = 0 := by
  have e := (equation_disc hp E x y).1 h.1
  have e2 : (Affine.Point.some x y h + Affine.Point.some x y h = 0) ↔ y = E.toAffine.negY x y := by
    rw [add_eq_zero_iff_eq_neg, Affine.Point.neg_some, Affine.Point.some.injEq]
    exact ⟨fun h => h.2, fun h => ⟨rfl, h⟩⟩
  rw [e2, ← e, Affine.negY, sq_eq_zero_iff, ← sub_eq_zero]
  constructor <;> intro h <;> linear_combination h

/-- the derivative does not vanish at the x-coordinate of a point of order 2 -/
theorem disc_simple (hp : p ≠ 2) (E : WeierstrassCurve (ZMod p)) {x y : ZMod p}
    (h : E.toAffine.Nonsingular x y) (h0 : discY E x = 0) :
    12 * x ^ 2 + 2 * (E.a₁ * E.a₁ + 4 * E.a₂) * x + 2 * (2 * E.a₄ + E.a₁ * E.a₃) ≠ 0 := by
  have h2 := two_ne_zero_zmod hp
  have e := (equation_disc hp E x y).1 h.1
  rw [h0, sq_eq_zero_iff] at e
  intro hd
  have h3 := ((Affine.nonsingular_iff _ _).1 h).2
  rcases h3 with h3 | h3
  · apply h3
    have : (2 : ZMod p) ^ 2 * (E.a₁ * y - (3 * x ^ 2 + 2 * E.a₂ * x + E.a₄)) = 0 := by
      linear_combination 2 * E.a₁ * e - hd
    rw [mul_eq_zero] at this
    exact sub_eq_zero.1 (this.resolve_left (pow_ne_zero 2 h2))
  · apply h3
    linear_combination e

/-- the 2-division polynomial divided by `x - t` -/
theorem disc_factor (E : WeierstrassCurve (ZMod p)) (t x : ZMod p) (h : discY E t = 0) :
    discY E x = (x - t) * (4 * x ^ 2 + (E.a₁ * E.a₁ + 4 * E.a₂ + 4 * t) * x +
      (2 * (2 * E.a₄ + E.a₁ * E.a₃) + (E.a₁ * E.a₁ + 4 * E.a₂ + 4 * t) * t)) := by
  have e : discY E x = discY E x - discY E t := by rw [h, sub_zero]
  rw [e]
  unfold discY
  ring

theorem gfSqrtTest_spec (hp : p ≠ 2) (S : SqrRootMod) (d : ZMod p) :
    (gfSqrtTest S d = some none ∧ ¬ IsSquare d) ∨
    (∃ r, gfSqrtTest S d = some (some r) ∧ r ^ 2 = d) := by
  unfold gfSqrtTest
  rw [legendre_val hp]
  simp only []
  by_cases h : IsSquare d
  · right
    rw [if_neg (by rw [legendre_neg_one]; exact not_not.2 h)]
    split_ifs with h1
    · exact ⟨_, rfl, gfSqrt_spec hp S d h⟩
    · refine ⟨0, rfl, ?_⟩
      by_contra hd
      have hd' : ((d.val : ℤ) : ZMod p) ≠ 0 := by
        rw [val_cast]; intro h0; exact hd (by rw [h0]; ring)
      exact h1 ((legendreSym.eq_one_iff p hd').2 (by rw [val_cast]; exact h))
  · left
    rw [if_pos (by rw [legendre_neg_one]; exact h)]
    exact ⟨rfl, h⟩

/-- **C70 (second point of order 2).** Let `q` be odd and `T` a point of order 2.  The computation in
`my_isomorphism_type` gives a point of order 2 other than `T`, or reports that there is none, in which
case there is none. -/
theorem C70_other_two (hp : p ≠ 2) (S : SqrRootMod) (E : WeierstrassCurve (ZMod p)) (hE : E.Δ ≠ 0)
    (T : E.toAffine.Point) (hT0 : T ≠ 0) (hT : T + T = 0) :
    (∃ T' : E.toAffine.Point, otherTwo S E (xKey T) = some (some (coords T')) ∧ T' ≠ 0 ∧
      T' + T' = 0 ∧ T' ≠ T) ∨
    (otherTwo S E (xKey T) = some none ∧ ∀ T' : E.toAffine.Point, T' + T' = 0 → T' = 0 ∨ T' = T) := by
  have h2 := two_ne_zero_zmod hp
  rcases T with _ | ⟨t, y, ht⟩
  · exact absurd rfl hT0
  have ht0 : discY E t = 0 := (two_torsion_iff hp E ht).1 hT
  obtain ⟨a1, ha1⟩ : ∃ a1, a1 = E.a₁ * E.a₁ + 4 * E.a₂ + 4 * t := ⟨_, rfl⟩
  obtain ⟨a0, ha0⟩ : ∃ a0, a0 = 2 * (2 * E.a₄ + E.a₁ * E.a₃) + a1 * t := ⟨_, rfl⟩
  have hfac : ∀ x, discY E x = (x - t) * (4 * x ^ 2 + a1 * x + a0) := fun x => by
    rw [ha0, ha1]; exact disc_factor E t x ht0
  have hsim : 4 * t ^ 2 + a1 * t + a0 ≠ 0 := by
    intro h
    refine disc_simple hp E ht ht0 ?_
    rw [ha0, ha1] at h
    linear_combination h
  have h8 : (8 : ZMod p) ≠ 0 := by
    have : (8 : ZMod p) = 2 ^ 3 := by norm_num
    rw [this]; exact pow_ne_zero 3 h2
  have hkey : xKey (Affine.Point.some t y ht) = t := rfl
  rw [hkey]
  unfold otherTwo
  simp only []
  rw [← ha1, ← ha0]
  rcases gfSqrtTest_spec hp S (a1 * a1 - 16 * a0) with ⟨e, hns⟩ | ⟨r, e, hr⟩
  · right
    rw [e]
    refine ⟨rfl, fun T' hT' => ?_⟩
    rcases T' with _ | ⟨x, y', hx⟩
    · exact Or.inl rfl
    right
    have hx0 := (two_torsion_iff hp E hx).1 hT'
    rw [hfac, mul_eq_zero] at hx0
    rcases hx0 with hx0 | hx0
    · have hxt : x = t := sub_eq_zero.1 hx0
      subst hxt
      have e1 := (equation_disc hp E x y).1 ht.1
      have e2 := (equation_disc hp E x y').1 hx.1
      rw [ht0, sq_eq_zero_iff] at e1 e2
      have : y' = y := mul_left_cancel₀ h2 (by linear_combination e2 - e1)
      subst this
      rfl
    · exact absurd ⟨8 * x + a1, by linear_combination -16 * hx0⟩ hns
  · left
    rw [e]
    simp only []
    have hsq := gfSqrt_spec hp S (a1 * a1 - 16 * a0) ⟨r, by rw [← hr, sq]⟩
    obtain ⟨g, hg⟩ : ∃ g, g = gfSqrt S (a1 * a1 - 16 * a0) := ⟨_, rfl⟩
    rw [← hg] at hsq ⊢
    obtain ⟨x, hx⟩ : ∃ x, x = (g - a1) / 8 := ⟨_, rfl⟩
    have hx8 : 8 * x = g - a1 := by rw [hx, mul_div_cancel₀ _ h8]
    rw [← hx]
    have hroot : 4 * x ^ 2 + a1 * x + a0 = 0 := by
      have h16 : (16 : ZMod p) ≠ 0 := by
        have : (16 : ZMod p) = 2 ^ 4 := by norm_num
        rw [this]; exact pow_ne_zero 4 h2
      refine mul_left_cancel₀ h16 ?_
      linear_combination (8 * x + a1 + g) * hx8 + hsq
    have hx0 : discY E x = 0 := by rw [hfac, hroot, mul_zero]
    rcases C70_set_x hp S E x with ⟨y', h1, h3⟩ | ⟨_, h3⟩
    · rw [h1]
      have hns := (Affine.equation_iff_nonsingular_of_Δ_ne_zero hE).1 h3
      refine ⟨.some x y' hns, rfl, (fun h => by cases h), (two_torsion_iff hp E hns).2 hx0, fun h => ?_⟩
      rw [Affine.Point.some.injEq] at h
      rw [h.1] at hroot
      exact hsim hroot
    · exact absurd ((equation_disc hp E x (-(E.a₁ * x + E.a₃) / 2)).2 (by
        rw [hx0, mul_div_cancel₀ _ h2, neg_add_cancel, sq, mul_zero])) (h3 _)

/-- the points of the run in `C69_iso_type_wrong` are values of `random_point` -/
example : randomPoint Marith.Props.sqr0 ex139 [41] = some (coords q139) ∧
    randomPoint Marith.Props.sqr0 ex139 [7] = some (coords p139) ∧
    randomPoint Marith.Props.sqr0 ex139 [1, 7] = some (coords p139) := by decide +kernel

/-! ### the isomorphism type of a curve over a small field -/

/-- a function on points computing what `otherTwo` computes on coordinates -/
def Other2Of (S : SqrRootMod) (E : WeierstrassCurve (ZMod p))
    (other2 : E.toAffine.Point → Option E.toAffine.Point) : Prop :=
  ∀ T, T ≠ 0 → T + T = 0 → otherTwo S E (xKey T) = some ((other2 T).map coords)

theorem exists_other2 (hp : p ≠ 2) (S : SqrRootMod) (E : WeierstrassCurve (ZMod p)) (hE : E.Δ ≠ 0) :
    ∃ other2, Other2Of S E other2 := by
  classical
  have h : ∀ T : E.toAffine.Point, ∃ r : Option E.toAffine.Point, T ≠ 0 → T + T = 0 →
      otherTwo S E (xKey T) = some (r.map coords) := by
    intro T
    by_cases h0 : T ≠ 0 ∧ T + T = 0
    · rcases C70_other_two hp S E hE T h0.1 h0.2 with ⟨T', h, -⟩ | ⟨h, -⟩
      · exact ⟨some T', fun _ _ => h⟩
      · exact ⟨none, fun _ _ => h⟩
    · exact ⟨none, fun h1 h2 => absurd ⟨h1, h2⟩ h0⟩
  choose f hf using h
  exact ⟨f, hf⟩

theorem Other2Of.ok (hp : p ≠ 2) {S : SqrRootMod} {E : WeierstrassCurve (ZMod p)} (hE : E.Δ ≠ 0)
    {other2 : E.toAffine.Point → Option E.toAffine.Point} (h : Other2Of S E other2) :
    Other2Ok other2 := by
  intro T T' h0 h2 e
  have h3 := h T h0 h2
  rw [e] at h3
  rcases C70_other_two hp S E hE T h0 h2 with ⟨T2, h4, h5⟩ | ⟨h4, -⟩
  · rw [h4] at h3
    simp only [Option.map_some, Option.some.injEq] at h3
    rw [← coords_injective h3]
    exact h5
  · rw [h4] at h3
    cases h3

/-- **C69 (curves over small fields).** Over `F_q` with `q` odd and either below 100 or one of 181, 331,
547, with the group order as counted, the second point of order 2 as computed and any random points:
if `my_isomorphism_type` returns then `P1` and `P2` are independent, have the orders returned and
generate the group of points. -/
theorem C69_curve (hp : p ≠ 2) (hq : countDirectly p = true) (S : SqrRootMod)
    (E : WeierstrassCurve (ZMod p)) (hE : E.Δ ≠ 0) {K : Type} [Monoid K] [DecidableEq K]
    {wp : E.toAffine.Point → E.toAffine.Point → ℤ → K} (hwp : WeilOk wp) {pdivs : ℤ → List ℤ}
    (hpd : Curve.PdivsOk pdivs) {ord : E.toAffine.Point → ℤ} (hord : ∀ Q, ord Q = addOrderOf Q)
    {other2 : E.toAffine.Point → Option E.toAffine.Point} (h2 : Other2Of S E other2)
    (rnd : ℕ → E.toAffine.Point) (leg : ℤ) (hleg : countLegendre E = some leg)
    {fuel : ℕ} (hf : leg ≤ fuel) {P1 P2 : E.toAffine.Point} {n1 n2 : ℤ}
    (hres : isoType xKey pdivs fuel ord wp other2 rnd p leg = some (P1, n1, P2, n2)) :
    IsBasis P1 n1 P2 n2 := by
  have : Finite E.toAffine.Point := Finite.of_equiv _ (pointEquiv E hE).symm
  rw [C70_count hp E hE, Option.some.injEq] at hleg
  subst hleg
  exact C69_iso_type_counted xKey_ok hwp hpd hord (h2.ok hp hE) rnd p hq (by exact_mod_cast hf) hres

end Eclib.Pmod
