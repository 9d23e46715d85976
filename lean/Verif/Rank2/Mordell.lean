import Mathlib.GroupTheory.Descent
import Mathlib.GroupTheory.FiniteAbelian.Basic
import Verif.Rank2.Height
import Verif.Rank2.Glob

/-!
# Mordell's theorem for the curves of class rank2

For C115 and C116: the group of rational points of `y² = x(x² + cx + d)` is finitely generated.  The
height of a point is the (logarithmic) height of its x-coordinate; it satisfies the parallelogram law up
to a constant by the formulas for `x(P+Q), x(P-Q)` (`Hasse.addSub`) and the bound for heights under the
forms of these formulas (Mathlib).  The quotient by doubles is finite because the two isogenies have
finite cokernels, embedded in the Selmer groups.
-/

namespace Eclib.Rank2

open WeierstrassCurve Height Eclib.Hasse

set_option linter.unusedSectionVars false

section weak
variable {c d : ℤ}

theorem glob_finite (hc : Curve c d) : {D | Glob c d D}.Finite := by
  have h : {D | Glob c d D} ⊆ {D : ℤ | D ∣ d} := fun D hD => (hD.sel hc).dvd
  refine Set.Finite.subset ?_ h
  refine (Set.finite_Icc (-|d|) |d|).subset fun D hD => ?_
  have h0 : 0 < |d| := abs_pos.2 hc.1
  exact ⟨by
    have := Int.le_of_dvd h0 ((dvd_abs _ _).2 ((neg_dvd).2 hD)); linarith, Int.le_of_dvd h0 ((dvd_abs _ _).2 hD)⟩

theorem glob_ncard (hc : Curve c d) : {D | Glob c d D}.ncard ≠ 0 := by
  obtain ⟨D, h1, h2⟩ := exists_glob hc 0
  exact (Set.ncard_pos (glob_finite hc)).2 ⟨D, h1, 0, h2⟩ |>.ne'

/-- the doubles have finite index -/
theorem dbl_index (hc : Curve c d) : (dbl (Cu (c : ℚ) (d : ℚ)).toAffine.Point).range.index ≠ 0 := by
  have hF := isF' hc
  have hG := isG' hc
  have i1 : (isogHom hG).range.index ≠ 0 := by rw [index_glob hc]; exact glob_ncard hc
  have i2 : (isogHom hF).range.index ≠ 0 := by rw [index_glob hc.dual]; exact glob_ncard hc.dual
  have hr : (dbl (Cu (c : ℚ) (d : ℚ)).toAffine.Point).range = (isogHom hF).range.map (isogHom hG) := by
    ext x
    constructor
    · rintro ⟨y, rfl⟩
      exact ⟨_, ⟨y, rfl⟩, isog_dual hF hG (by norm_num) y⟩
    · rintro ⟨_, ⟨y, rfl⟩, rfl⟩
      exact ⟨y, (isog_dual hF hG (by norm_num) y).symm⟩
  rw [hr, AddSubgroup.index_map]
  refine mul_ne_zero (fun h0 => i2 ?_) i1
  exact Nat.eq_zero_of_zero_dvd (h0 ▸ AddSubgroup.index_dvd_of_le le_sup_left)

/-- **Mordell's theorem** for these curves -/
theorem mordell (hc : Curve c d) : AddGroup.FG (Cu (c : ℚ) (d : ℚ)).toAffine.Point := by
  have : (Cu (c : ℚ) (d : ℚ)).IsElliptic := ⟨(hc.nd ℚ).disc.isUnit⟩
  obtain ⟨C, hC⟩ := ht_parallelogram (W := Cu (c : ℚ) (d : ℚ)) rfl rfl
  refine AddCommGroup.fg_of_descent' (h := ht (W := Cu (c : ℚ) (d : ℚ))) (C := C) ?_
    (fun P => logHeight_nonneg _) hC
  constructor
  have e : (nsmulAddMonoidHom (α := (Cu (c : ℚ) (d : ℚ)).toAffine.Point) 2).range =
      (dbl (Cu (c : ℚ) (d : ℚ)).toAffine.Point).range := by
    ext x
    constructor
    · rintro ⟨y, rfl⟩
      exact ⟨y, (two_nsmul y).symm⟩
    · rintro ⟨y, rfl⟩
      exact ⟨y, two_nsmul y⟩
  rw [e]
  exact dbl_index hc

/-- the free part of a finitely generated group -/
theorem finrank_of_equiv {A F : Type} [AddCommGroup A] [AddCommGroup F] [Finite F] {n : ℕ}
    (g : A ≃+ (Fin n → ℤ) × F) : Module.finrank ℤ A = n := by
  rw [g.toIntLinearEquiv.finrank_eq]
  have : Module.Finite ℤ F := Module.Finite.of_finite
  have h := (LinearMap.ker (LinearMap.fst ℤ (Fin n → ℤ) F)).finrank_quotient_add_finrank
  have h0 : Module.finrank ℤ (LinearMap.ker (LinearMap.fst ℤ (Fin n → ℤ) F)) = 0 := by
    refine Module.finrank_eq_of_rank_eq ?_
    rw [Nat.cast_zero, rank_eq_zero_iff]
    rintro ⟨⟨x, y⟩, hx⟩
    have hx : x = 0 := hx
    subst hx
    refine ⟨(Nat.card F : ℤ), by exact_mod_cast Nat.card_pos.ne', ?_⟩
    apply Subtype.ext
    change ((Nat.card F : ℤ) • (0 : Fin n → ℤ), (Nat.card F : ℤ) • y) = 0
    rw [smul_zero, natCast_zsmul, card_nsmul_eq_zero']
    rfl
  rw [h0, (LinearMap.quotKerEquivOfSurjective _ LinearMap.fst_surjective).finrank_eq, Module.finrank_fin_fun] at h
  exact h.symm

/-- the structure of a finitely generated group -/
theorem fg_structure (A : Type) [AddCommGroup A] [AddGroup.FG A] :
    ∃ F : Type, ∃ _ : AddCommGroup F, ∃ _ : Finite F, Nonempty (A ≃+ (Fin (Module.finrank ℤ A) → ℤ) × F) := by
  obtain ⟨n, ι, _, p, hp, e, ⟨f⟩⟩ := AddCommGroup.equiv_free_prod_directSum_zmod A
  classical
  have : ∀ i, NeZero (p i ^ e i) := fun i => ⟨pow_ne_zero _ (hp i).ne_zero⟩
  have hfin : Finite (∀ i, ZMod (p i ^ e i)) := inferInstance
  let g : A ≃+ (Fin n → ℤ) × (∀ i, ZMod (p i ^ e i)) :=
    f.trans (Finsupp.addEquivFunOnFinite.prodCongr (DirectSum.addEquivProd _))
  rw [finrank_of_equiv g]
  exact ⟨_, inferInstance, hfin, ⟨g⟩⟩

theorem mordell_structure (hc : Curve c d) :
    ∃ F : Type, ∃ _ : AddCommGroup F, ∃ _ : Finite F, Nonempty ((Cu (c : ℚ) (d : ℚ)).toAffine.Point ≃+
      (Fin (Module.finrank ℤ (Cu (c : ℚ) (d : ℚ)).toAffine.Point) → ℤ) × F) := by
  have := mordell hc
  exact fg_structure _

end weak

end Eclib.Rank2
