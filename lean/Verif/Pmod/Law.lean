import Mathlib.Tactic.LinearCombination
import Mathlib.Tactic.Ring
import Mathlib.Algebra.Field.ZMod
import Verif.Pmod.Model

/-!
# C65: the operators of pointmodq are the group law of E(F_q)
-/

set_option linter.unusedSectionVars false

namespace Eclib.Pmod

open WeierstrassCurve

variable {F : Type} [Field F] [DecidableEq F] {E : WeierstrassCurve F}

/-- the coordinates of a point of Mathlib's group `E(F)` -/
def coords : E.toAffine.Point → Pq F
  | .zero => .oo
  | .some x y _ => .pt x y

theorem coords_zero : coords (0 : E.toAffine.Point) = .oo := rfl

theorem coords_injective : Function.Injective (coords (E := E)) := by
  rintro (_ | ⟨x, y, h⟩) (_ | ⟨x', y', h'⟩) he
  · rfl
  · cases he
  · cases he
  · cases he; rfl

theorem onCurve_iff (x y : F) : Pq.onCurve E (.pt x y) = true ↔ E.toAffine.Equation x y := by
  rw [Affine.equation_iff, Pq.onCurve, decide_eq_true_iff]
  constructor <;> intro h <;> linear_combination h

theorem coords_neg (A : E.toAffine.Point) : coords (-A) = Pq.neg E (coords A) := by
  rcases A with _ | ⟨x, y, h⟩
  · rfl
  · rfl

theorem coords_onCurve (A : E.toAffine.Point) : Pq.onCurve E (coords A) = true := by
  rcases A with _ | ⟨x, y, h⟩
  · rfl
  · exact (onCurve_iff x y).2 h.1

theorem negY_neg (x y : F) : Pq.neg E (.pt x (E.toAffine.negY x y)) = .pt x y := by
  simp only [Pq.neg, Affine.negY]
  congr 1
  ring

theorem coords_twice (A : E.toAffine.Point) : coords (A + A) = Pq.twice E (coords A) := by
  rcases A with _ | ⟨x, y, h⟩
  · rfl
  · by_cases hy : y = E.toAffine.negY x y
    · rw [Affine.Point.add_self_of_Y_eq hy]
      simp only [coords, Pq.twice]
      rw [if_pos (by rw [Affine.negY] at hy; linear_combination hy)]
    · rw [Affine.Point.add_self_of_Y_ne hy]
      simp only [coords, Pq.twice]
      have hd : 2 * y + E.a₁ * x + E.a₃ ≠ 0 := by
        intro h0
        exact hy (by rw [Affine.negY]; linear_combination h0)
      rw [if_neg hd]
      have hsl : (3 * x * x + 2 * E.a₂ * x + E.a₄ - E.a₁ * y) / (2 * y + E.a₁ * x + E.a₃) =
          E.toAffine.slope x x y y := by
        rw [Affine.slope_of_Y_ne rfl hy, Affine.negY]
        congr 1
        · ring
        · ring
      rw [hsl]
      have hx : E.toAffine.slope x x y y * (E.toAffine.slope x x y y + E.a₁) - E.a₂ - 2 * x =
          E.toAffine.addX x x (E.toAffine.slope x x y y) := by
        rw [Affine.addX]; ring
      rw [hx]
      have hy' : E.toAffine.slope x x y y * E.toAffine.addX x x (E.toAffine.slope x x y y) +
          (y - E.toAffine.slope x x y y * x) =
          E.toAffine.negAddY x x y (E.toAffine.slope x x y y) := by
        rw [Affine.negAddY]; ring
      rw [hy']
      have hon := Affine.equation_negAdd h.1 h.1 (fun hh => hy hh.2)
      rw [if_neg (by rw [(onCurve_iff _ _).2 hon]; simp)]
      rw [Affine.addY]
      simp only [Pq.neg, Affine.negY]

theorem coords_add (A B : E.toAffine.Point) : coords (A + B) = Pq.add E (coords A) (coords B) := by
  rcases A with _ | ⟨x, y, h⟩
  · change coords (0 + B) = _
    rw [zero_add]
    rfl
  rcases B with _ | ⟨x', y', h'⟩
  · change coords (_ + 0) = _
    rw [add_zero]
    rfl
  by_cases hx : x = x'
  · by_cases hy : y = y'
    · subst hx; subst hy
      simp only [coords, Pq.add, if_true]
      exact coords_twice (.some x y h)
    · subst hx
      have := Affine.Y_eq_of_X_eq h.1 h'.1 rfl
      rw [Affine.Point.add_of_Y_eq rfl (this.resolve_left hy)]
      simp only [coords, Pq.add, if_true, if_neg hy]
  · rw [Affine.Point.add_of_X_ne hx]
    simp only [coords, Pq.add, if_neg hx]
    have hsl : (y - y') / (x - x') = E.toAffine.slope x x' y y' := (Affine.slope_of_X_ne hx).symm
    rw [hsl]
    obtain ⟨l, hl⟩ : ∃ l, l = E.toAffine.slope x x' y y' := ⟨_, rfl⟩
    have hon := Affine.equation_negAdd h.1 h'.1 (fun hh => hx hh.1)
    rw [← hl] at hon ⊢
    have hX : l * (l + E.a₁) - E.a₂ - x - x' = E.toAffine.addX x x' l := by
      rw [Affine.addX]; ring
    rw [hX]
    have hY : l * E.toAffine.addX x x' l + (y - l * x) = E.toAffine.negAddY x x' y l := by
      rw [Affine.negAddY]; ring
    rw [hY, if_neg (by rw [(onCurve_iff _ _).2 hon]; simp), Affine.addY]
    simp only [Pq.neg, Affine.negY]

theorem coords_mulLoop (n : ℤ) (A B : E.toAffine.Point) (hn : 1 ≤ n) :
    Pq.mulLoop E n (coords A) (coords B) = coords (B + (n - n % 2) • A) := by
  obtain ⟨m, hm⟩ : ∃ m : ℕ, n = m := ⟨n.toNat, by omega⟩
  induction m using Nat.strong_induction_on generalizing n A B with
  | _ m ih =>
    rw [Pq.mulLoop]
    by_cases h1 : 1 < n
    · rw [if_pos h1]
      simp only []
      rw [← coords_twice]
      have hsplit : (if n / 2 % 2 = 1 then Pq.add E (coords B) (coords (A + A)) else coords B) =
          coords (B + (n / 2 % 2) • (A + A)) := by
        split_ifs with h
        · rw [← coords_add, h, one_smul]
        · have : n / 2 % 2 = 0 := by omega
          rw [this, zero_smul, add_zero]
      rw [hsplit, ih (n / 2).toNat (by omega) (n / 2) _ _ (by omega) (by omega)]
      congr 1
      rw [add_assoc, ← two_smul ℤ A, ← add_smul, smul_smul]
      congr 2
      omega
    · rw [if_neg h1]
      have : n = 1 := by omega
      subst this
      simp

theorem coords_mul (n : ℤ) (A : E.toAffine.Point) : coords (n • A) = Pq.mul E n (coords A) := by
  unfold Pq.mul
  by_cases h0 : coords A = .oo ∨ n = 0
  · rw [if_pos h0]
    rcases h0 with h | h
    · have : A = 0 := coords_injective h
      rw [this, smul_zero]; rfl
    · rw [h, zero_smul]; rfl
  rw [if_neg h0]
  push Not at h0
  have key : ∀ m : ℤ, 0 < m →
      (if m = 1 then coords A else if m = 2 then Pq.twice E (coords A)
        else Pq.mulLoop E m (coords A) (if m % 2 = 1 then coords A else .oo)) = coords (m • A) := by
    intro m hm
    split_ifs with h1 h2 h3
    · rw [h1, one_smul]
    · rw [h2, two_smul, coords_twice]
    · rw [coords_mulLoop m A A (by omega)]
      congr 1
      nth_rewrite 1 [← one_smul ℤ A]
      rw [← add_smul]
      congr 1
      omega
    · rw [← coords_zero (E := E), coords_mulLoop m A 0 (by omega), zero_add]
      congr 2
      omega
  by_cases hneg : n < 0
  · simp only [hneg, if_true]
    have := key (-n) (by omega)
    have h2 : coords (n • A) = Pq.neg E (coords ((-n) • A)) := by
      rw [← coords_neg, neg_smul, neg_neg]
    rw [h2, ← this]
    split_ifs <;> rfl
  · simp only [hneg, if_false]
    rw [← key n (by omega)]

theorem coords_sub (A B : E.toAffine.Point) : coords (A - B) = Pq.sub E (coords A) (coords B) := by
  rw [sub_eq_add_neg, coords_add, coords_neg, Pq.sub]

theorem eq_iff (P Q : Pq F) : Pq.eq P Q = true ↔ P = Q := by
  cases P <;> cases Q <;> simp [Pq.eq]

theorem exists_coords (hE : E.Δ ≠ 0) (P : Pq F) (h : Pq.onCurve E P = true) :
    ∃ A : E.toAffine.Point, coords A = P := by
  cases P with
  | oo => exact ⟨0, rfl⟩
  | pt x y =>
    exact ⟨.some x y ((Affine.equation_iff_nonsingular_of_Δ_ne_zero hE).1 ((onCurve_iff x y).1 h)),
      rfl⟩

/-- **C65 (represents).** On a curve with non-zero discriminant the objects which pass `on_curve`
are exactly the coordinates of the points of the group `E(F)`, each point occurring once, and
`operator==` decides equality of points. -/
theorem C65_represents (E : WeierstrassCurve F) (hE : E.Δ ≠ 0) :
    (∀ P, Pq.onCurve E P = true ↔ ∃ A : E.toAffine.Point, coords A = P) ∧
    (∀ A B : E.toAffine.Point, Pq.eq (coords A) (coords B) = true ↔ A = B) :=
  ⟨fun P => ⟨exists_coords hE P, by rintro ⟨A, rfl⟩; exact coords_onCurve A⟩, fun A B => by
    rw [eq_iff]; exact coords_injective.eq_iff⟩

/-- **C65.** `negate`, `+`, `-`, `twice` and multiplication by any integer are the operations of the
group `E(F)`: in particular results are on the curve and the error exits are not taken. -/
theorem C65_group_law (E : WeierstrassCurve F) (A B : E.toAffine.Point) (n : ℤ) :
    coords (-A) = Pq.neg E (coords A) ∧
    coords (A + B) = Pq.add E (coords A) (coords B) ∧
    coords (A - B) = Pq.sub E (coords A) (coords B) ∧
    coords (A + A) = Pq.twice E (coords A) ∧
    coords (n • A) = Pq.mul E n (coords A) :=
  ⟨coords_neg A, coords_add A B, coords_sub A B, coords_twice A, coords_mul n A⟩

/-- **C65 (laws).** The same on the level of the code: for objects on the curve the results are on
the curve and the operators form an abelian group, with `n*P` the multiple. -/
theorem C65_laws (E : WeierstrassCurve F) (hE : E.Δ ≠ 0) (P Q R : Pq F)
    (hP : Pq.onCurve E P = true) (hQ : Pq.onCurve E Q = true) (hR : Pq.onCurve E R = true)
    (m n : ℤ) :
    Pq.onCurve E (Pq.add E P Q) = true ∧ Pq.onCurve E (Pq.neg E P) = true ∧
    Pq.onCurve E (Pq.mul E n P) = true ∧
    Pq.add E P Q = Pq.add E Q P ∧
    Pq.add E (Pq.add E P Q) R = Pq.add E P (Pq.add E Q R) ∧
    Pq.add E P .oo = P ∧ Pq.add E P (Pq.neg E P) = .oo ∧ Pq.twice E P = Pq.add E P P ∧
    Pq.mul E (m + n) P = Pq.add E (Pq.mul E m P) (Pq.mul E n P) ∧
    Pq.mul E (m * n) P = Pq.mul E m (Pq.mul E n P) ∧ Pq.mul E 1 P = P ∧
    Pq.mul E (-n) P = Pq.neg E (Pq.mul E n P) := by
  obtain ⟨A, rfl⟩ := exists_coords hE P hP
  obtain ⟨B, rfl⟩ := exists_coords hE Q hQ
  obtain ⟨C, rfl⟩ := exists_coords hE R hR
  simp only [← coords_neg, ← coords_add, ← coords_mul, ← coords_twice,
    coords_onCurve, ← coords_zero (E := E), coords_injective.eq_iff]
  refine ⟨trivial, trivial, trivial, add_comm _ _, add_assoc _ _ _, add_zero _, add_neg_cancel _,
    trivial, add_smul _ _ _, mul_smul _ _ _, one_smul _ _, neg_smul _ _⟩

instance : Fact (Nat.Prime 7) := ⟨by decide⟩

/-- a curve over F_7 with a point of order 6 -/
def ex7 : WeierstrassCurve (ZMod 7) := ⟨0, 0, 0, 1, 3⟩

example : ex7.Δ ≠ 0 ∧ Pq.onCurve ex7 (.pt 4 1) = true ∧
    Pq.mul ex7 3 (.pt 4 1) = Pq.add ex7 (.pt 4 1) (Pq.twice ex7 (.pt 4 1)) ∧
    Pq.mul ex7 6 (.pt 4 1) = .oo ∧ Pq.mul ex7 3 (.pt 4 1) ≠ .oo := by
  decide +kernel

end Eclib.Pmod
