import Mathlib.LinearAlgebra.Dimension.Constructions
import Mathlib.LinearAlgebra.FiniteDimensional.Defs
import Mathlib.Algebra.BigOperators.Fin
import Mathlib.Algebra.BigOperators.Ring.Finset
import Mathlib.Data.Fintype.BigOperators
import Mathlib.Tactic.Linarith

/-!
# The eigenspaces of the Atkin-Lehner involutions on the oldforms of a newform

A newform `f` of level `d` gives at level `N` the oldforms `f(δz)`, `δ ∣ m = N/d`.  For each prime `q` with `q^β ∥ m` the involution
`W_q` maps the exponent `i` of `q` in `δ` to `β - i`, up to the sign `ε_q`.
-/

namespace Eclib.Old

open Module

variable {ι : Type} [Fintype ι] [DecidableEq ι]

namespace Spec

/-- the space with one basis vector for each system of exponents `0 ≤ i_j ≤ β_j` -/
abbrev OldSpace (β : ι → ℕ) : Type := (∀ j, Fin (β j + 1)) → ℚ

/-- the involution `W_j`: the exponent `i_j` becomes `β_j - i_j`, with the sign `ε_j` -/
def W (β : ι → ℕ) (ε : ι → ℤ) (j : ι) : OldSpace β →ₗ[ℚ] OldSpace β where
  toFun f i := (ε j : ℚ) * f (Function.update i j (Fin.rev (i j)))
  map_add' f g := by
    funext i
    simp only [Pi.add_apply]
    ring
  map_smul' c f := by
    funext i
    simp only [Pi.smul_apply, smul_eq_mul, RingHom.id_apply]
    ring

/-- the common eigenspace of the involutions for the signs `s_j` -/
def eigen (β : ι → ℕ) (ε s : ι → ℤ) : Submodule ℚ (OldSpace β) where
  carrier := {f | ∀ j, W β ε j f = (s j : ℚ) • f}
  add_mem' {f g} hf hg j := by rw [map_add, hf j, hg j, smul_add]
  zero_mem' j := by rw [map_zero, smul_zero]
  smul_mem' c f hf j := by rw [map_smul, hf j, smul_comm]

end Spec

open Spec

/-- the exponents where an eigenvector is determined: those up to the middle; without the middle if the sign is `-1` -/
def Tset (b : ℕ) (σ : ℤ) : Type := {a : Fin (b + 1) // if σ = 1 then 2 * (a : ℕ) ≤ b else 2 * (a : ℕ) < b}

instance (b : ℕ) (σ : ℤ) : Fintype (Tset b σ) := by
  unfold Tset
  infer_instance

instance (b : ℕ) (σ : ℤ) : DecidableEq (Tset b σ) := by
  unfold Tset
  infer_instance

theorem Tset.two_le {b : ℕ} {σ : ℤ} (t : Tset b σ) : 2 * (t.1 : ℕ) ≤ b := by
  have := t.2
  split at this <;> omega

/-- the number of these exponents -/
def tdim (b : ℕ) (σ : ℤ) : ℕ := if σ = 1 then b / 2 + 1 else (b + 1) / 2

theorem card_Tset (b : ℕ) (σ : ℤ) : Fintype.card (Tset b σ) = tdim b σ := by
  unfold tdim
  have e : Fintype.card (Fin (if σ = 1 then b / 2 + 1 else (b + 1) / 2)) = Fintype.card (Tset b σ) := by
    apply Fintype.card_congr
    refine ⟨fun a => ⟨⟨a, ?_⟩, ?_⟩, fun t => ⟨t.1, ?_⟩, ?_, ?_⟩
    · have := a.2
      split at this <;> omega
    · have := a.2
      dsimp only
      split_ifs at this ⊢ <;> omega
    · have := t.2
      split_ifs at this ⊢ <;> omega
    · intro a
      rfl
    · intro t
      rfl
  rw [← e, Fintype.card_fin]

/-- the coefficient -/
def K (b : ℕ) (σ : ℤ) (a : Fin (b + 1)) (t : Tset b σ) : ℚ := if a = t.1 then 1 else if Fin.rev a = t.1 then (σ : ℚ) else 0

theorem rev_val {b : ℕ} (a : Fin (b + 1)) : ((Fin.rev a : Fin (b + 1)) : ℕ) = b - a := by
  rw [Fin.val_rev]
  omega

theorem K_rev {b : ℕ} {σ : ℤ} (hσ : σ = 1 ∨ σ = -1) (a : Fin (b + 1)) (t : Tset b σ) : K b σ (Fin.rev a) t = σ * K b σ a t := by
  unfold K
  rw [Fin.rev_rev]
  by_cases h1 : a = t.1
  · rw [if_pos h1]
    by_cases h2 : Fin.rev a = t.1
    · rw [if_pos h2]
      have h3 : 2 * (t.1 : ℕ) = b := by
        have := congrArg Fin.val h2
        rw [rev_val, h1] at this
        have := t.1.2
        omega
      have h4 := t.2
      have : σ = 1 := by
        by_contra h
        rw [if_neg h] at h4
        omega
      rw [if_pos h1, mul_one, this]
      norm_num
    · rw [if_neg h2, if_pos h1, mul_one]
  · rw [if_neg h1]
    by_cases h2 : Fin.rev a = t.1
    · rw [if_pos h2, if_neg h1, if_pos h2]
      rcases hσ with rfl | rfl <;> norm_num
    · rw [if_neg h2, if_neg h2, if_neg h1, mul_zero]

theorem K_T {b : ℕ} {σ : ℤ} (t' t : Tset b σ) : K b σ t'.1 t = if t' = t then 1 else 0 := by
  unfold K
  by_cases h : t' = t
  · rw [h, if_pos rfl, if_pos rfl]
  · have h1 : t'.1 ≠ t.1 := fun h' => h (Subtype.ext h')
    rw [if_neg h1, if_neg h, if_neg]
    intro h2
    apply h1
    have := congrArg Fin.val h2
    rw [rev_val] at this
    have h3 := t.two_le
    have h4 := t'.two_le
    apply Fin.ext
    omega

section
variable {β : ι → ℕ} {ε s : ι → ℤ}

omit [Fintype ι] in
theorem mem_eigen (hε : ∀ j, ε j = 1 ∨ ε j = -1) (f : OldSpace β) :
    f ∈ eigen β ε s ↔ ∀ j i, f (Function.update i j (Fin.rev (i j))) = ((ε j * s j : ℤ) : ℚ) * f i := by
  constructor
  · intro h j i
    have := congrFun (h j) i
    simp only [W, LinearMap.coe_mk, AddHom.coe_mk, Pi.smul_apply, smul_eq_mul] at this
    push_cast
    rcases hε j with h1 | h1
    · rw [h1] at this ⊢
      simpa using this
    · rw [h1] at this ⊢
      push_cast at this ⊢
      linarith
  · intro h j
    funext i
    simp only [W, LinearMap.coe_mk, AddHom.coe_mk, Pi.smul_apply, smul_eq_mul]
    rw [h j i]
    push_cast
    rcases hε j with h1 | h1
    · rw [h1]
      push_cast
      ring
    · rw [h1]
      push_cast
      ring

/-- restriction to the determining exponents -/
def restr (β : ι → ℕ) (ε s : ι → ℤ) : eigen β ε s →ₗ[ℚ] ((∀ j, Tset (β j) (ε j * s j)) → ℚ) where
  toFun f t := f.1 (fun j => (t j).1)
  map_add' _ _ := rfl
  map_smul' _ _ := rfl

theorem restr_inj (hε : ∀ j, ε j = 1 ∨ ε j = -1) (hs : ∀ j, s j = 1 ∨ s j = -1) : Function.Injective (restr β ε s) := by
  rw [← LinearMap.ker_eq_bot, LinearMap.ker_eq_bot']
  rintro ⟨f, hf⟩ h0
  apply Subtype.ext
  rw [mem_eigen hε] at hf
  have key : ∀ (n : ℕ) (i : ∀ j, Fin (β j + 1)),
      (Finset.univ.filter (fun j => ¬ (if ε j * s j = 1 then 2 * (i j : ℕ) ≤ β j else 2 * (i j : ℕ) < β j))).card = n → f i = 0 := by
    intro n
    induction n using Nat.strong_induction_on with
    | _ n ih =>
      intro i hn
      by_cases hall : ∀ j, if ε j * s j = 1 then 2 * (i j : ℕ) ≤ β j else 2 * (i j : ℕ) < β j
      · exact congrFun h0 (fun j => ⟨i j, hall j⟩)
      · push Not at hall
        obtain ⟨j, hj⟩ := hall
        have hfj := hf j i
        by_cases hm : Fin.rev (i j) = i j
        · rw [hm, Function.update_eq_self] at hfj
          have hσ : ε j * s j = -1 := by
            have h2 := congrArg Fin.val hm
            rw [rev_val] at h2
            have := (i j).2
            rcases hε j with h | h <;> rcases hs j with h' | h' <;> rw [h, h'] at hj ⊢ <;> norm_num at hj ⊢ <;> omega
          rw [hσ] at hfj
          push_cast at hfj
          linarith
        · have hlt := ih _ ?_ (Function.update i j (Fin.rev (i j))) rfl
          · rw [hlt] at hfj
            have hσ : ((ε j * s j : ℤ) : ℚ) ≠ 0 := by
              rcases hε j with h | h <;> rcases hs j with h' | h' <;> rw [h, h'] <;> norm_num
            exact (mul_eq_zero.1 hfj.symm).resolve_left hσ
          · rw [← hn]
            apply Finset.card_lt_card
            rw [Finset.ssubset_iff_of_subset]
            · refine ⟨j, by simpa using hj, ?_⟩
              simp only [Finset.mem_filter, Finset.mem_univ, true_and, not_not, Function.update_self]
              have h2 : ((Fin.rev (i j) : Fin (β j + 1)) : ℕ) ≠ (i j : ℕ) := fun h' => hm (Fin.ext h')
              rw [rev_val] at h2 ⊢
              have := (i j).2
              split_ifs at hj ⊢ <;> omega
            · intro l
              simp only [Finset.mem_filter, Finset.mem_univ, true_and]
              by_cases hl : l = j
              · subst hl
                intro _
                exact hj
              · rw [Function.update_of_ne hl]
                exact id
  funext i
  exact key _ i rfl

theorem restr_surj (hε : ∀ j, ε j = 1 ∨ ε j = -1) (hs : ∀ j, s j = 1 ∨ s j = -1) : Function.Surjective (restr β ε s) := by
  intro g
  refine ⟨⟨fun i => ∑ t : ∀ j, Tset (β j) (ε j * s j), (∏ j, K (β j) (ε j * s j) (i j) (t j)) * g t, ?_⟩, ?_⟩
  · rw [mem_eigen hε]
    intro j i
    rw [Finset.mul_sum]
    refine Finset.sum_congr rfl (fun t _ => ?_)
    rw [← mul_assoc]
    congr 1
    rw [← Finset.mul_prod_erase Finset.univ _ (Finset.mem_univ j),
      ← Finset.mul_prod_erase Finset.univ (fun l => K (β l) (ε l * s l) (i l) (t l)) (Finset.mem_univ j), Function.update_self,
      K_rev (by rcases hε j with h | h <;> rcases hs j with h' | h' <;> rw [h, h'] <;> norm_num), mul_assoc]
    congr 2
    refine Finset.prod_congr rfl (fun l hl => ?_)
    rw [Function.update_of_ne (Finset.ne_of_mem_erase hl)]
  · funext t'
    show ∑ t : ∀ j, Tset (β j) (ε j * s j), (∏ j, K (β j) (ε j * s j) (t' j).1 (t j)) * g t = g t'
    rw [Finset.sum_eq_single t']
    · have : ∏ j, K (β j) (ε j * s j) (t' j).1 (t' j) = 1 := Finset.prod_eq_one (fun j _ => by rw [K_T, if_pos rfl])
      rw [this, one_mul]
    · intro t _ ht
      obtain ⟨j, hj⟩ := Function.ne_iff.1 ht
      have : ∏ j, K (β j) (ε j * s j) (t' j).1 (t j) = 0 := by
        apply Finset.prod_eq_zero (Finset.mem_univ j)
        rw [K_T, if_neg (fun h => hj h.symm)]
      rw [this, zero_mul]
    · intro h
      exact absurd (Finset.mem_univ _) h

/-- **The dimension of a common eigenspace** -/
theorem finrank_eigen (hε : ∀ j, ε j = 1 ∨ ε j = -1) (hs : ∀ j, s j = 1 ∨ s j = -1) :
    finrank ℚ (eigen β ε s) = ∏ j, tdim (β j) (ε j * s j) := by
  rw [(LinearEquiv.ofBijective (restr β ε s) ⟨restr_inj hε hs, restr_surj hε hs⟩).finrank_eq, Module.finrank_fintype_fun_eq_card,
    Fintype.card_pi]
  simp only [card_Tset]
end

end Eclib.Old
