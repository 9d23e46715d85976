import Mathlib.LinearAlgebra.Matrix.SchurComplement
import Mathlib.LinearAlgebra.Matrix.NonsingularInverse
import Mathlib.Data.Rat.Cast.CharZero
import Mathlib.Tactic.FieldSimp

/-!
# The determinant identity behind fraction-free elimination
-/

namespace Eclib.Mat

open Matrix

variable {R : Type} [CommRing R]

/-- the minor of the rows `P` (functions of the column index) at the columns `c` -/
def mn {ι : Type} [Fintype ι] [DecidableEq ι] (P : ι → ℕ → R) (c : ι → ℕ) : R :=
  Matrix.det (Matrix.of fun a b => P a (c b))

/-- one more row -/
def addRow {ι α : Type} (P : ι → α) (u : α) : ι ⊕ Unit → α := Sum.elim P fun _ => u

/-- the minor bordered with the row `u` and the column `j` -/
def bd {ι : Type} [Fintype ι] [DecidableEq ι] (P : ι → ℕ → R) (c : ι → ℕ) (u : ℕ → R) (j : ℕ) : R :=
  mn (addRow P u) (addRow c j)

theorem bd_eq {F : Type} [Field F] {ι : Type} [Fintype ι] [DecidableEq ι] (P : ι → ℕ → F) (c : ι → ℕ)
    (u : ℕ → F) (j : ℕ) (h : mn P c ≠ 0) :
    bd P c u j = mn P c * (u j - ∑ a, (∑ b, u (c b) * (Matrix.of fun a b => P a (c b))⁻¹ b a) * P a j) := by
  unfold bd mn
  have hu : IsUnit (Matrix.of fun a b => P a (c b)).det := isUnit_iff_ne_zero.2 h
  have := (Matrix.of fun a b => P a (c b)).invertibleOfIsUnitDet hu
  have e : (Matrix.of fun a b => addRow P u a (addRow c j b)) =
      Matrix.fromBlocks (Matrix.of fun a b => P a (c b)) (Matrix.of fun a (_ : Unit) => P a j)
        (Matrix.of fun (_ : Unit) b => u (c b)) (Matrix.of fun (_ _ : Unit) => u j) := by
    ext a b
    rcases a with a | a <;> rcases b with b | b <;> rfl
  rw [e, Matrix.det_fromBlocks₁₁, Matrix.det_unique (n := Unit), Matrix.invOf_eq_nonsing_inv]
  simp [Matrix.mul_apply]

theorem sylvester_field {F : Type} [Field F] {ι : Type} [Fintype ι] [DecidableEq ι] (P : ι → ℕ → F)
    (c : ι → ℕ) (u₀ u : ℕ → F) (c₀ j : ℕ) (h : mn P c ≠ 0) :
    bd P c u₀ c₀ * bd P c u j - bd P c u c₀ * bd P c u₀ j =
      mn P c * bd (addRow P u₀) (addRow c c₀) u j := by
  have hu : IsUnit (Matrix.of fun a b => P a (c b)).det := isUnit_iff_ne_zero.2 h
  have := (Matrix.of fun a b => P a (c b)).invertibleOfIsUnitDet hu
  have key : bd (addRow P u₀) (addRow c c₀) u j = mn P c *
      ((u₀ c₀ - ∑ a, (∑ b, u₀ (c b) * (Matrix.of fun a b => P a (c b))⁻¹ b a) * P a c₀) *
        (u j - ∑ a, (∑ b, u (c b) * (Matrix.of fun a b => P a (c b))⁻¹ b a) * P a j) -
       (u₀ j - ∑ a, (∑ b, u₀ (c b) * (Matrix.of fun a b => P a (c b))⁻¹ b a) * P a j) *
        (u c₀ - ∑ a, (∑ b, u (c b) * (Matrix.of fun a b => P a (c b))⁻¹ b a) * P a c₀)) := by
    unfold bd mn
    let uu : Unit ⊕ Unit → ℕ → F := Sum.elim (fun _ => u₀) fun _ => u
    let jj : Unit ⊕ Unit → ℕ := Sum.elim (fun _ => c₀) fun _ => j
    have e : (Matrix.of fun a b => addRow (addRow P u₀) u a (addRow (addRow c c₀) j b)) =
        (Matrix.fromBlocks (Matrix.of fun a b => P a (c b)) (Matrix.of fun a s => P a (jj s))
          (Matrix.of fun s b => uu s (c b)) (Matrix.of fun r s => uu r (jj s))).submatrix
          (Equiv.sumAssoc ι Unit Unit) (Equiv.sumAssoc ι Unit Unit) := by
      ext a b
      rcases a with (a | a) | a <;> rcases b with (b | b) | b <;> rfl
    rw [e, Matrix.det_submatrix_equiv_self, Matrix.det_fromBlocks₁₁, Matrix.invOf_eq_nonsing_inv]
    congr 1
    rw [← Matrix.det_submatrix_equiv_self (finSumFinEquiv.symm.trans
      (Equiv.sumCongr finOneEquiv finOneEquiv) : Fin (1 + 1) ≃ Unit ⊕ Unit)]
    rw [Matrix.det_fin_two]
    have h0 : (finSumFinEquiv.symm.trans
      (Equiv.sumCongr finOneEquiv finOneEquiv) : Fin (1 + 1) ≃ Unit ⊕ Unit) 0 = Sum.inl () := by decide
    have h1 : (finSumFinEquiv.symm.trans
      (Equiv.sumCongr finOneEquiv finOneEquiv) : Fin (1 + 1) ≃ Unit ⊕ Unit) 1 = Sum.inr () := by decide
    simp only [Matrix.submatrix_apply, h0, h1, Matrix.sub_apply, Matrix.mul_apply, Matrix.of_apply]
    rfl
  rw [key, bd_eq P c u₀ c₀ h, bd_eq P c u j h, bd_eq P c u c₀ h, bd_eq P c u₀ j h]
  ring

theorem mn_cast {ι : Type} [Fintype ι] [DecidableEq ι] (P : ι → ℕ → ℤ) (c : ι → ℕ) :
    ((mn P c : ℤ) : ℚ) = mn (fun a k => ((P a k : ℤ) : ℚ)) c := by
  unfold mn
  exact RingHom.map_det (Int.castRingHom ℚ) _

theorem addRow_cast {ι : Type} (P : ι → ℕ → ℤ) (u : ℕ → ℤ) :
    (fun a k => ((addRow P u a k : ℤ) : ℚ)) = addRow (fun a k => ((P a k : ℤ) : ℚ)) fun k => (u k : ℚ) := by
  funext a k
  rcases a with a | a <;> rfl

/-- Sylvester's identity for bordered minors -/
theorem sylvester {ι : Type} [Fintype ι] [DecidableEq ι] (P : ι → ℕ → ℤ) (c : ι → ℕ) (u₀ u : ℕ → ℤ)
    (c₀ j : ℕ) (h : mn P c ≠ 0) :
    bd P c u₀ c₀ * bd P c u j - bd P c u c₀ * bd P c u₀ j =
      mn P c * bd (addRow P u₀) (addRow c c₀) u j := by
  have h' : mn (fun a k => ((P a k : ℤ) : ℚ)) c ≠ 0 := by
    rw [← mn_cast]; exact_mod_cast h
  have := sylvester_field (fun a k => ((P a k : ℤ) : ℚ)) c (fun k => (u₀ k : ℚ)) (fun k => (u k : ℚ)) c₀ j h'
  have e : ∀ (κ : Type) [Fintype κ] [DecidableEq κ] (Q : κ → ℕ → ℤ) (d : κ → ℕ) (v : ℕ → ℤ) (k : ℕ),
      bd (fun a k => ((Q a k : ℤ) : ℚ)) d (fun k => (v k : ℚ)) k = ((bd Q d v k : ℤ) : ℚ) := by
    intro κ _ _ Q d v k
    unfold bd
    rw [mn_cast, addRow_cast]
  rw [← addRow_cast] at this
  simp only [e] at this
  rw [← mn_cast] at this
  exact_mod_cast this

theorem bd_empty (c : Empty → ℕ) (P : Empty → ℕ → ℤ) (u : ℕ → ℤ) (j : ℕ) : bd P c u j = u j := by
  unfold bd mn
  rw [Matrix.det_eq_elem_of_card_eq_one (by simp) (Sum.inr ())]
  rfl

theorem mn_empty (c : Empty → ℕ) (P : Empty → ℕ → ℤ) : mn P c = 1 := by
  unfold mn
  exact Matrix.det_isEmpty

end Eclib.Mat
