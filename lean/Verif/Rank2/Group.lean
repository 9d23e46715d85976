import Mathlib.GroupTheory.Index
import Mathlib.Data.ZMod.Basic
import Mathlib.Tactic.Ring
import Mathlib.Tactic.Abel
import Mathlib.Data.ZMod.QuotientGroup
import Mathlib.SetTheory.Cardinal.Finite

/-!
# Indices for a pair of homomorphisms whose composition is multiplication by 2
-/

namespace Eclib.Rank2

variable {A B : Type} [AddCommGroup A] [AddCommGroup B]

theorem card_comap (f : A →+ B) (H : AddSubgroup B) : Nat.card (H.comap f) = Nat.card f.ker * Nat.card (H ⊓ f.range : AddSubgroup B) := by
  have h1 := AddSubgroup.card_mul_index (f.ker.addSubgroupOf (H.comap f))
  have hle : f.ker ≤ H.comap f := by
    intro x hx
    rw [AddSubgroup.mem_comap, (AddMonoidHom.mem_ker).1 hx]
    exact H.zero_mem
  rw [Nat.card_congr (AddSubgroup.addSubgroupOfEquivOfLe hle).toEquiv] at h1
  have h2 : (f.ker.addSubgroupOf (H.comap f)).index = Nat.card ((H.comap f).map f) := AddSubgroup.relIndex_ker (H.comap f) f
  rw [h2, AddSubgroup.map_comap_eq, inf_comm] at h1
  exact h1.symm

/-- the index of the image of the composition -/
theorem index_comp (f : A →+ B) (g : B →+ A) :
    (g.comp f).range.index * (Nat.card f.ker * Nat.card g.ker) = g.range.index * f.range.index * Nat.card (g.comp f).ker := by
  have h1 : (g.comp f).range = f.range.map g := AddMonoidHom.range_comp _ _
  have h2 := AddSubgroup.index_map f.range g
  have h3 := AddSubgroup.relIndex_mul_index (H := f.range) (K := f.range ⊔ g.ker) le_sup_left
  rw [AddSubgroup.relIndex_sup_left] at h3
  have h4 := AddSubgroup.card_mul_index (f.range.addSubgroupOf g.ker)
  have h5 : Nat.card (f.range.addSubgroupOf g.ker) = Nat.card (g.ker ⊓ f.range : AddSubgroup B) := by
    rw [← AddSubgroup.inf_addSubgroupOf_right, inf_comm]
    exact Nat.card_congr (AddSubgroup.addSubgroupOfEquivOfLe inf_le_left).toEquiv
  have h6 : (g.comp f).ker = g.ker.comap f := by
    ext x; rfl
  rw [h1, h2, h6, card_comap, ← h4, h5, ← h3]
  show (f.range ⊔ g.ker).index * g.range.index * (Nat.card f.ker * (Nat.card (g.ker ⊓ f.range : AddSubgroup B) * f.range.relIndex g.ker)) = _
  ring

/-- multiplication by 2 -/
def dbl (A : Type) [AddCommGroup A] : A →+ A := AddMonoidHom.mk' (fun x => x + x) (fun x y => by abel)

theorem index_equiv (e : A ≃+ B) : (dbl A).range.index = (dbl B).range.index := by
  have : (dbl B).range = (dbl A).range.map (e : A →+ B) := by
    ext x
    constructor
    · rintro ⟨y, rfl⟩
      exact ⟨_, ⟨e.symm y, rfl⟩, by simp [dbl]⟩
    · rintro ⟨_, ⟨y, rfl⟩, rfl⟩
      exact ⟨e y, by simp [dbl]⟩
  rw [this]
  exact (AddSubgroup.index_map_equiv _ e).symm

theorem ker_equiv (e : A ≃+ B) : Nat.card (dbl A).ker = Nat.card (dbl B).ker := by
  refine Nat.card_congr ⟨fun x => ⟨e x.1, ?_⟩, fun x => ⟨e.symm x.1, ?_⟩, fun x => by simp, fun x => by simp⟩
  · have := AddMonoidHom.mem_ker.1 x.2
    rw [AddMonoidHom.mem_ker]
    simp only [dbl, AddMonoidHom.mk'_apply] at this ⊢
    rw [← map_add, this, map_zero]
  · have := AddMonoidHom.mem_ker.1 x.2
    rw [AddMonoidHom.mem_ker]
    simp only [dbl, AddMonoidHom.mk'_apply] at this ⊢
    rw [← map_add, this, map_zero]

/-- for a group `ℤ^r × F`, `F` finite -/
theorem index_dbl {r : ℕ} {F : Type} [AddCommGroup F] [Finite F] (e : A ≃+ (Fin r → ℤ) × F) :
    (dbl A).range.index = 2 ^ r * Nat.card (dbl A).ker ∧ Nat.card (dbl A).ker ≠ 0 := by
  rw [index_equiv e, ker_equiv e]
  have hk : Nat.card (dbl ((Fin r → ℤ) × F)).ker = Nat.card (dbl F).ker := by
    refine Nat.card_congr ⟨fun x => ⟨x.1.2, ?_⟩, fun x => ⟨(0, x.1), ?_⟩, fun x => ?_, fun x => ?_⟩
    · have := AddMonoidHom.mem_ker.1 x.2
      simp only [dbl, AddMonoidHom.mk'_apply] at this
      exact congrArg Prod.snd this
    · have := AddMonoidHom.mem_ker.1 x.2
      simp only [dbl, AddMonoidHom.mk'_apply] at this
      rw [AddMonoidHom.mem_ker]
      simp [dbl, this]
    · have := AddMonoidHom.mem_ker.1 x.2
      simp only [dbl, AddMonoidHom.mk'_apply] at this
      have h1 := congrArg Prod.fst this
      apply Subtype.ext
      refine Prod.ext ?_ rfl
      funext i
      have := congrFun h1 i
      simp only [Prod.fst_add, Pi.add_apply, Prod.fst_zero, Pi.zero_apply] at this ⊢
      omega
    · rfl
  have hF : (dbl F).range.index = Nat.card (dbl F).ker := AddSubgroup.index_range
  let φ : (Fin r → ℤ) × F →+ (Fin r → ZMod 2) × (F ⧸ (dbl F).range) :=
    AddMonoidHom.mk' (fun x => (fun i => (x.1 i : ZMod 2), (x.2 : F ⧸ (dbl F).range))) (by
      intro x y
      refine Prod.ext ?_ rfl
      funext i
      simp)
  have hφ : φ.ker = (dbl ((Fin r → ℤ) × F)).range := by
    ext x
    rw [AddMonoidHom.mem_ker]
    constructor
    · intro hx
      have h1 := congrArg Prod.fst hx
      have h2 := congrArg Prod.snd hx
      have h3 : ∀ i, ∃ k, x.1 i = k + k := by
        intro i
        have := congrFun h1 i
        have : ((x.1 i : ℤ) : ZMod 2) = 0 := this
        rw [ZMod.intCast_zmod_eq_zero_iff_dvd] at this
        obtain ⟨k, hk⟩ := this
        exact ⟨k, by rw [hk]; push_cast; ring⟩
      choose k hk using h3
      have h4 : x.2 ∈ (dbl F).range := (QuotientAddGroup.eq_zero_iff _).1 h2
      obtain ⟨z, hz⟩ := h4
      refine ⟨(k, z), ?_⟩
      refine Prod.ext ?_ ?_
      · funext i
        exact (hk i).symm
      · exact hz
    · rintro ⟨y, rfl⟩
      refine Prod.ext ?_ ?_
      · funext i
        show (((y.1 i + y.1 i : ℤ)) : ZMod 2) = 0
        rw [ZMod.intCast_zmod_eq_zero_iff_dvd]
        exact ⟨y.1 i, by push_cast; ring⟩
      · show (((y.2 + y.2 : F)) : F ⧸ (dbl F).range) = 0
        rw [QuotientAddGroup.eq_zero_iff]
        exact ⟨y.2, rfl⟩
  have hs : Function.Surjective φ := by
    rintro ⟨u, v⟩
    obtain ⟨w, rfl⟩ := QuotientAddGroup.mk_surjective v
    have : ∀ i, ∃ z : ℤ, (z : ZMod 2) = u i := fun i => ZMod.intCast_surjective (u i)
    choose z hz using this
    exact ⟨(z, w), Prod.ext (funext hz) rfl⟩
  rw [hk, ← hφ, AddSubgroup.index_ker, AddMonoidHom.range_eq_top.2 hs, Nat.card_congr AddSubgroup.topEquiv.toEquiv, Nat.card_prod]
  refine ⟨?_, Nat.card_ne_zero.2 ⟨⟨0⟩, inferInstance⟩⟩
  rw [← hF]
  congr 1
  rw [Nat.card_eq_fintype_card, Fintype.card_fun, ZMod.card, Fintype.card_fin]

/-- **the rank and the two indices** -/
theorem rank_index {f : A →+ B} {g : B →+ A} (hgf : ∀ x, g (f x) = x + x) (hf : Nat.card f.ker = 2) (hg : Nat.card g.ker = 2) {r : ℕ}
    {F : Type} [AddCommGroup F] [Finite F] (e : A ≃+ (Fin r → ℤ) × F) : 2 ^ (r + 2) = g.range.index * f.range.index := by
  have h1 := index_comp f g
  have h2 : g.comp f = dbl A := by
    ext x
    exact hgf x
  obtain ⟨h3, h4⟩ := index_dbl e
  rw [h2, hf, hg, h3] at h1
  have : 2 ^ (r + 2) * Nat.card (dbl A).ker = g.range.index * f.range.index * Nat.card (dbl A).ker := by
    rw [← h1, pow_add]; ring
  exact Nat.eq_of_mul_eq_mul_right (Nat.pos_of_ne_zero h4) this

end Eclib.Rank2
