import Verif.Hom.Spec
import Mathlib.NumberTheory.ModularForms.CongruenceSubgroups
import Mathlib.Topology.Compactification.OnePoint.ProjectiveLine

/-!
# The invariance of modular symbols in terms of Mathlib's `Γ₀(N)`
-/

namespace Eclib.Hom

open ManinSpec Matrix MatrixGroups

/-- the transformation `mob` is the action of a matrix on the projective line -/
theorem mob_eq_smul (g : SL(2, ℤ)) (α : OnePoint ℚ) :
    mob (g 0 0) (g 0 1) (g 1 0) (g 1 1) α = (SpecialLinearGroup.mapGL ℚ g) • α := by
  induction α using OnePoint.rec with
  | infty =>
    rw [OnePoint.smul_infty_eq_ite]
    show cusp _ _ = _
    unfold cusp
    simp
  | coe x =>
    rw [OnePoint.smul_some_eq_ite]
    show (if _ then _ else _) = _
    simp

/-- the field `inv` of `IsModSym` is the invariance under Mathlib's `Γ₀(N)` -/
theorem inv_iff_gamma0 {K : Type*} (N : ℕ) (f : OnePoint ℚ → OnePoint ℚ → K) :
    (∀ a b c d : ℤ, a * d - b * c = 1 → (N : ℤ) ∣ c → ∀ α β, f (mob a b c d α) (mob a b c d β) = f α β) ↔
      ∀ g ∈ CongruenceSubgroup.Gamma0 N, ∀ α β,
        f (SpecialLinearGroup.mapGL ℚ g • α) (SpecialLinearGroup.mapGL ℚ g • β) = f α β := by
  constructor
  · intro h g hg α β
    rw [CongruenceSubgroup.Gamma0_mem] at hg
    rw [← mob_eq_smul, ← mob_eq_smul]
    refine h _ _ _ _ ?_ ((ZMod.intCast_zmod_eq_zero_iff_dvd _ N).1 hg) α β
    have := g.det_coe
    rwa [det_fin_two] at this
  · intro h a b c d hd hc α β
    obtain ⟨g, e1, e2, e3, e4⟩ : ∃ g : SL(2, ℤ), g 0 0 = a ∧ g 0 1 = b ∧ g 1 0 = c ∧ g 1 1 = d :=
      ⟨⟨!![a, b; c, d], by rw [det_fin_two_of]; exact hd⟩, rfl, rfl, rfl, rfl⟩
    have := h g (by rw [CongruenceSubgroup.Gamma0_mem, e3]; exact (ZMod.intCast_zmod_eq_zero_iff_dvd _ N).2 hc) α β
    rwa [← mob_eq_smul, ← mob_eq_smul, e1, e2, e3, e4] at this

end Eclib.Hom
