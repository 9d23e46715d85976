import Verif.Hom.BdryModel
import Verif.Hom.Commute
import Verif.Symb.CuspProps
import Verif.Elim.SubProps

/-!
# C81: the boundary map and the cuspidal subspace
-/

set_option linter.unusedSectionVars false

namespace Eclib.Hom

open Ratl (R)
open Symb (Symbdata cneg)
open Symb.SymbSpec Symb.CuspSpec ManinSpec
open Svec (T SV)
open Smat.Props (SRep)
open Elim (RrefOk SparseOk)
open Matrix

namespace ManinSpec

/-- A function on cusps invariant under `Γ₀(N)`, for `pf = ±1` moreover with `g(-x) = pf·g(x)`.  The cusps modulo
these relations have these functions as their dual space. -/
structure IsBdry {K : Type*} [Field K] (N pf : ℤ) (g : OnePoint ℚ → K) : Prop where
  inv : ∀ a b c d : ℤ, a * d - b * c = 1 → N ∣ c → ∀ α, g (mob a b c d α) = g α
  sign : pf ≠ 0 → ∀ α, g (mob (-1) 0 0 1 α) = (pf : K) * g α

/-- The linear combination with coefficients `v` of the symbols `{α_j, β_j} = m j` has boundary zero: the sum of
`v_j ([β_j] - [α_j])` is zero modulo the relations between cusps. -/
def IsCuspidal (q : ℕ) [Fact q.Prime] (N pf : ℤ) {k : ℕ} (m : Fin k → R × R) (v : Fin k → ZMod q) : Prop :=
  ∀ g : OnePoint ℚ → ZMod q, IsBdry N pf g → ∑ j, v j * (g (rc (m j).2) - g (rc (m j).1)) = 0

end ManinSpec

/-! ### equivalence of cusps -/

/-- equivalence under `Γ₀(N)` -/
def GEq (N : ℤ) (x y : OnePoint ℚ) : Prop := ∃ a b c d : ℤ, a * d - b * c = 1 ∧ N ∣ c ∧ mob a b c d x = y

theorem mob_one (x : OnePoint ℚ) : mob 1 0 0 1 x = x := by
  obtain ⟨a, c, h, -, rfl⟩ := exists_cusp x
  rw [mob_cusp _ _ _ _ (ne_zero_of_coprime h)]
  congr 1 <;> ring

theorem GEq.symm {N : ℤ} {x y : OnePoint ℚ} (h : GEq N x y) : GEq N y x := by
  obtain ⟨a, b, c, d, hd, hc, rfl⟩ := h
  refine ⟨d, -b, -c, a, by linear_combination hd, hc.neg_right, ?_⟩
  rw [mob_mob _ _ _ _ (by rw [hd]; norm_num)]
  have : ∀ a' b' c' d' : ℤ, a' = 1 → b' = 0 → c' = 0 → d' = 1 → mob a' b' c' d' x = x := by
    rintro _ _ _ _ rfl rfl rfl rfl
    exact mob_one x
  apply this
  · linear_combination hd
  · ring
  · ring
  · linear_combination hd

theorem GEq.trans {N : ℤ} {x y z : OnePoint ℚ} (h : GEq N x y) (h' : GEq N y z) : GEq N x z := by
  obtain ⟨a, b, c, d, hd, hc, rfl⟩ := h
  obtain ⟨a', b', c', d', hd', hc', rfl⟩ := h'
  refine ⟨_, _, _, _, ?_, ?_, (mob_mob _ _ _ _ (by rw [hd]; norm_num) x).symm⟩
  · linear_combination (a * d - b * c) * hd' + hd
  · exact dvd_add (hc'.mul_right _) (hc.mul_left _)

/-- the map `x ↦ -x` -/
theorem conj_mob {a b c d : ℤ} (hd : a * d - b * c = 1) (x : OnePoint ℚ) :
    mob (-1) 0 0 1 (mob a b c d x) = mob a (-b) (-c) d (mob (-1) 0 0 1 x) := by
  rw [mob_mob _ _ _ _ (by rw [hd]; norm_num), mob_mob _ _ _ _ (by norm_num)]
  congr 1 <;> ring

theorem conj_conj (x : OnePoint ℚ) : mob (-1) 0 0 1 (mob (-1) 0 0 1 x) = x := by
  rw [mob_mob _ _ _ _ (by norm_num)]
  simpa using mob_one x

theorem GEq.conj {N : ℤ} {x y : OnePoint ℚ} (h : GEq N x y) : GEq N (mob (-1) 0 0 1 x) (mob (-1) 0 0 1 y) := by
  obtain ⟨a, b, c, d, hd, hc, rfl⟩ := h
  exact ⟨a, -b, -c, d, by linear_combination hd, hc.neg_right, (conj_mob hd x).symm⟩

theorem rc_cneg {c : R} (hc : IsCusp c) : rc (cneg c) = mob (-1) 0 0 1 (rc c) := by
  unfold rc
  rw [mob_cusp _ _ _ _ (ne_zero_of_coprime hc.1)]
  simp only [cneg]
  congr 1 <;> ring

/-- a cusp determines the fraction in lowest terms up to sign -/
theorem cusp_inj {a c a' c' : ℤ} (h : IsCoprime a c) (h' : IsCoprime a' c') (he : cusp a c = cusp a' c') :
    (a = a' ∧ c = c') ∨ (a = -a' ∧ c = -c') := by
  have key : a * c' = a' * c := by
    unfold cusp at he
    by_cases h1 : c = 0
    · by_cases h2 : c' = 0
      · rw [h1, h2, mul_zero, mul_zero]
      · rw [if_pos h1, if_neg h2] at he
        exact absurd he (OnePoint.infty_ne_coe _)
    · by_cases h2 : c' = 0
      · rw [if_neg h1, if_pos h2] at he
        exact absurd he (OnePoint.coe_ne_infty _)
      · rw [if_neg h1, if_neg h2, OnePoint.coe_eq_coe, div_eq_div_iff (by exact_mod_cast h1) (by exact_mod_cast h2)] at he
        exact_mod_cast he
  obtain ⟨u, v, e⟩ := h
  obtain ⟨u', v', e'⟩ := h'
  -- the unit is k = u' a + v' c
  have k1 : a = (u' * a + v' * c) * a' := by linear_combination -a * e' + v' * key
  have k2 : c = (u' * a + v' * c) * c' := by linear_combination -c * e' - u' * key
  have k3 : (u' * a + v' * c) * (u * a' + v * c') = 1 := by
    linear_combination e - u * k1 - v * k2
  rcases Int.isUnit_eq_one_or (IsUnit.of_mul_eq_one _ k3) with k | k
  · rw [k, one_mul] at k1 k2
    exact .inl ⟨k1, k2⟩
  · rw [k] at k1 k2
    exact .inr ⟨by linarith, by linarith⟩

theorem geq_iff {N : ℤ} {x y : R} (hx : IsCusp x) (hy : IsCusp y) : GEq N (rc x) (rc y) ↔ Gamma0 N x y := by
  have h0 := ne_zero_of_coprime hx.1
  constructor
  · rintro ⟨a, b, c, d, hd, hc, h⟩
    refine ⟨a, b, c, d, hd, hc, ?_⟩
    unfold rc at h
    rw [mob_cusp _ _ _ _ h0] at h
    refine cusp_inj ?_ hy.1 h
    obtain ⟨u, v, e⟩ := hx.1
    exact ⟨u * d - v * c, v * a - u * b, by linear_combination e + (u * x.n + v * x.d) * hd⟩
  · rintro ⟨a, b, c, d, hd, hc, ⟨h1, h2⟩ | ⟨h1, h2⟩⟩
    · refine ⟨a, b, c, d, hd, hc, ?_⟩
      unfold rc
      rw [mob_cusp _ _ _ _ h0, h1, h2]
    · refine ⟨a, b, c, d, hd, hc, ?_⟩
      unfold rc
      rw [mob_cusp _ _ _ _ h0, h1, h2, cusp_neg]

theorem ManinSpec.IsBdry.geq {K : Type*} [Field K] {N pf : ℤ} {g : OnePoint ℚ → K} (hg : IsBdry N pf g) {x y : OnePoint ℚ} (h : GEq N x y) :
    g x = g y := by
  obtain ⟨a, b, c, d, hd, hc, rfl⟩ := h
  exact (hg.inv a b c d hd hc x).symm

section dl

variable {K : Type*} [Field K]

open Classical in
/-- the function of the class of a cusp -/
noncomputable def dl (N pf : ℤ) (l : OnePoint ℚ) (x : OnePoint ℚ) : K :=
  (if GEq N x l then 1 else 0) + (pf : K) * (if GEq N (mob (-1) 0 0 1 x) l then 1 else 0)

theorem dl_isBdry {N pf : ℤ} (hpf : pf = 0 ∨ pf = 1 ∨ pf = -1) (l : OnePoint ℚ) : IsBdry N pf (dl (K := K) N pf l) := by
  classical
  refine ⟨fun a b c d hd hc α => ?_, fun hp α => ?_⟩
  · have e1 : GEq N (mob a b c d α) l ↔ GEq N α l :=
      ⟨fun h => GEq.trans ⟨a, b, c, d, hd, hc, rfl⟩ h, fun h => GEq.trans (GEq.symm ⟨a, b, c, d, hd, hc, rfl⟩) h⟩
    have e2 : GEq N (mob (-1) 0 0 1 (mob a b c d α)) l ↔ GEq N (mob (-1) 0 0 1 α) l := by
      have : GEq N (mob (-1) 0 0 1 α) (mob (-1) 0 0 1 (mob a b c d α)) := GEq.conj ⟨a, b, c, d, hd, hc, rfl⟩
      exact ⟨fun h => this.trans h, fun h => this.symm.trans h⟩
    unfold dl
    simp only [e1, e2]
  · unfold dl
    rw [conj_conj]
    rcases hpf with rfl | rfl | rfl
    · exact absurd rfl hp
    · push_cast; ring
    · push_cast; ring

end dl

/-! ### the index of a cusp -/

/-- the coefficient of the class number `m` (from 0) in a cusp with index `j` -/
def sgnAt (j : ℤ) (m : ℕ) : ℤ := if j = m + 1 then 1 else if j = -(m + 1) then -1 else 0

/-- the invariant of the list -/
structure LOk (N pf : ℤ) (L : List R) : Prop where
  cusp : ∀ c ∈ L, IsCusp c
  ineq : ∀ {m m' : ℕ} {d d' : R}, L[m]? = some d → L[m']? = some d' →
    Gamma0 N d d' ∨ (pf ≠ 0 ∧ Gamma0 N d (cneg d')) → m = m'
  self : pf = -1 → ∀ c ∈ L, ¬Gamma0 N c (cneg c)

/-- the relation between a cusp and its index -/
def Idx (N pf : ℤ) (L : List R) (c : R) (j : ℤ) : Prop :=
  (pf = -1 ∧ j = 0 ∧ Gamma0 N c (cneg c)) ∨ ∃ (m : ℕ) (d : R), L[m]? = some d ∧
    ((j = m + 1 ∧ (Gamma0 N c d ∨ (pf = 1 ∧ Gamma0 N c (cneg d)))) ∨ (pf = -1 ∧ j = -(m + 1) ∧ Gamma0 N (cneg c) d))

section idx

variable {N pf : ℤ}

theorem listInv_of {L : List R} (hpf : pf = 0 ∨ pf = 1) (h : Symb.ListOK pf N L) : LOk N pf L := by
  refine ⟨h.cusp, fun {m m' d d'} h1 h2 h3 => Symb.ineq_inj h h1 h2 ?_, fun hp => by omega⟩
  rcases hpf with rfl | rfl
  · rw [Symb.ceq_zero]
    rcases h3 with h3 | ⟨h3, -⟩
    · exact h3
    · exact absurd rfl h3
  · rw [Symb.ceq_one]
    exact h3.imp id fun h => h.2

theorem listInv1_of {L : List R} (h : Symb.ListOK1 N L) : LOk N (-1) L := by
  refine ⟨h.cusp, fun {m m' d d'} h1 h2 h3 => Symb.ineq_inj h.ineq h1 h2 ?_, fun _ => h.self⟩
  rw [Symb.ceq_one]
  exact h3.imp id fun h => h.2

/-- the whole of the first loop, and that a second look at the same cusp does not change the list -/
theorem run_idx (hN : 0 < N) {M : Symb.Moddata} (hM : Symb.ModOK N M) (hpf : pf = 0 ∨ pf = 1 ∨ pf = -1) {cs : List R}
    (hcs : ∀ c ∈ cs, IsCusp c) :
    ∃ L js, Symb.cuspRun (cuspIdx M pf) [] cs = some (L, js) ∧ LOk N pf L ∧
      (∀ c ∈ cs, ∃ j, cuspIdx M pf L c = some (L, j) ∧ Idx N pf L c j) ∧ L.length ≤ cs.length := by
  have hlen : ∀ (f : List R → R → Option (List R × ℤ)), (∀ L c L' j, f L c = some (L', j) → L'.length ≤ L.length + 1) →
      ∀ (cs L L' : List R) js, Symb.cuspRun f L cs = some (L', js) → L'.length ≤ L.length + cs.length := by
    intro f hf cs
    induction cs with
    | nil =>
      intro L L' js h
      simp only [Symb.cuspRun, Option.some.injEq, Prod.mk.injEq] at h
      rw [← h.1]; simp
    | cons c cs ih =>
      intro L L' js h
      unfold Symb.cuspRun at h
      split at h
      · exact absurd h (by simp)
      · rename_i L1 j e1
        split at h
        · exact absurd h (by simp)
        · rename_i L2 js' e2
          simp only [Option.some.injEq, Prod.mk.injEq] at h
          obtain ⟨rfl, -⟩ := h
          have := ih _ _ _ e2
          have := hf _ _ _ _ e1
          simp only [List.length_cons]
          omega
  have hidx : ∀ L c L' j, cuspIdx M pf L c = some (L', j) → L'.length ≤ L.length + 1 := by
    intro L c L' j h
    unfold cuspIdx at h
    split_ifs at h
    · unfold Symb.cuspIndex1 at h
      split at h
      · exact absurd h (by simp)
      · simp only [Option.some.injEq, Prod.mk.injEq] at h
        rw [← h.1]; omega
      · split at h
        · exact absurd h (by simp)
        · split_ifs at h <;> simp only [Option.some.injEq, Prod.mk.injEq] at h <;> rw [← h.1] <;> simp
    · unfold Symb.cuspIndex at h
      split at h
      · exact absurd h (by simp)
      · simp only [Option.some.injEq, Prod.mk.injEq] at h
        rw [← h.1]; omega
      · simp only [Option.some.injEq, Prod.mk.injEq] at h
        rw [← h.1]; simp
  by_cases hm : pf = -1
  · subst hm
    have hfun : cuspIdx M (-1) = Symb.cuspIndex1 M := by
      funext L c
      unfold cuspIdx
      rw [if_pos rfl]
    obtain ⟨L, js, h1, h2, -, h4⟩ := Symb.run_spec (f := Symb.cuspIndex1 M) (I := Symb.ListOK1 N) (Q := Symb.Q1 N)
      (by
        rintro L L' c j hp (h | ⟨h, m, d, q2, q3⟩)
        · exact Or.inl h
        · exact Or.inr ⟨h, m, d, Symb.prefix_getElem? hp q2, q3⟩)
      (Symb.cuspIndex1_spec hN hM) cs hcs [] ⟨by simp, by simp, by simp, by simp⟩
    refine ⟨L, js, by rw [hfun]; exact h1, listInv1_of h2, fun c hc => ?_, ?_⟩
    · obtain ⟨i, hi, rfl⟩ := List.getElem_of_mem hc
      have hQ := Symb.forall₂_get h4 (List.getElem?_eq_getElem hi) (List.getElem?_eq_getElem (h4.length_eq ▸ hi))
      have hcc := hcs _ (List.getElem_mem hi)
      obtain ⟨b, b1, b2⟩ := Symb.cuspeq_spec hN hM hcc (Symb.IsCusp.neg hcc) 0
      rw [Symb.ceq_zero] at b2
      rw [hfun]
      cases b with
      | true => exact ⟨0, by simp only [Symb.cuspIndex1, Symb.neg_eq hcc, b1], .inl ⟨rfl, rfl, b2.1 rfl⟩⟩
      | false =>
        have hn : ¬ Gamma0 N cs[i] (cneg cs[i]) := fun h => by simpa using b2.2 h
        rcases Symb.cuspFind1_spec hN hM hcc L h2.cusp 0 with ⟨k1, k2⟩ | ⟨m, d, j, k1, k2, k3⟩
        · exfalso
          rcases hQ with ⟨-, hQ⟩ | ⟨-, m, d, hQ1, hQ2⟩
          · exact hn hQ
          · refine k2 d (List.mem_of_getElem? hQ1) (Symb.ceq_one.2 ?_)
            rcases hQ2 with ⟨-, hQ2⟩ | ⟨-, hQ2⟩
            · exact .inl hQ2
            · right
              obtain ⟨a, b, c, d', hd, hc, hm⟩ := hQ2
              refine ⟨a, -b, -c, d', by linear_combination hd, hc.neg_right, ?_⟩
              simp only [cneg, Maps] at hm ⊢
              rcases hm with ⟨e1, e2⟩ | ⟨e1, e2⟩
              · left; exact ⟨by linear_combination -e1, by linear_combination e2⟩
              · right; exact ⟨by linear_combination -e1, by linear_combination e2⟩
        · have hj : j ≠ 0 := by rcases k3 with h | h <;> omega
          refine ⟨j, by simp [Symb.cuspIndex1, Symb.neg_eq hcc, b1, k1, hj], .inr ⟨m, d, k2, ?_⟩⟩
          rcases k3 with ⟨k3, k4⟩ | ⟨k3, k4⟩
          · exact .inl ⟨by rw [k3]; push_cast; ring, .inl k4⟩
          · exact .inr ⟨rfl, by rw [k3]; push_cast; ring, k4⟩
    · have := hlen _ (fun L c L' j h => hidx L c L' j (by rw [hfun]; exact h)) _ _ _ _ h1
      simpa using this
  · have hpf' : pf = 0 ∨ pf = 1 := by omega
    have hfun : cuspIdx M pf = Symb.cuspIndex M pf := by
      funext L c
      unfold cuspIdx
      rw [if_neg hm]
    obtain ⟨L, js, h1, h2, -, h4⟩ := Symb.run_spec (f := Symb.cuspIndex M pf) (I := Symb.ListOK pf N) (Q := Symb.Q0 pf N)
      (fun L L' c j hp ⟨m, d, q1, q2, q3⟩ => ⟨m, d, q1, Symb.prefix_getElem? hp q2, q3⟩)
      (Symb.cuspIndex_spec hN hM pf) cs hcs [] ⟨by simp, by simp⟩
    refine ⟨L, js, by rw [hfun]; exact h1, listInv_of hpf' h2, fun c hc => ?_, ?_⟩
    · obtain ⟨i, hi, rfl⟩ := List.getElem_of_mem hc
      obtain ⟨m0, d0, q1, q2, q3⟩ := Symb.forall₂_get h4 (List.getElem?_eq_getElem hi) (List.getElem?_eq_getElem (h4.length_eq ▸ hi))
      have hcc := hcs _ (List.getElem_mem hi)
      rw [hfun]
      rcases Symb.cuspFind_spec hN hM pf hcc L h2.cusp 0 with ⟨k1, k2⟩ | ⟨m, d, k1, k2, k3⟩
      · exact absurd q3 (k2 d0 (List.mem_of_getElem? q2))
      · refine ⟨1 + (m : ℤ), by simp [Symb.cuspIndex, k1], .inr ⟨m, d, k2, .inl ⟨by ring, ?_⟩⟩⟩
        rcases hpf' with rfl | rfl
        · exact .inl (Symb.ceq_zero.1 k3)
        · exact (Symb.ceq_one.1 k3).imp id fun h => ⟨rfl, h⟩
    · have := hlen _ (fun L c L' j h => hidx L c L' j (by rw [hfun]; exact h)) _ _ _ _ h1
      simpa using this

theorem Idx.range {L : List R} {c : R} {j : ℤ} (h : Idx N pf L c j) : -(L.length : ℤ) ≤ j ∧ j ≤ L.length := by
  rcases h with ⟨-, rfl, -⟩ | ⟨m, d, h1, h2⟩
  · constructor <;> omega
  · have := (List.getElem?_eq_some_iff.1 h1).1
    rcases h2 with ⟨h2, -⟩ | ⟨-, h2, -⟩ <;> constructor <;> omega

/-- the value of a function on cusps from the index -/
theorem Idx.value {K : Type*} [Field K] (h2 : (2 : K) ≠ 0) {L : List R} (hL : ∀ c ∈ L, IsCusp c) {c : R} (hc : IsCusp c) {j : ℤ}
    (h : Idx N pf L c j) {g : OnePoint ℚ → K} (hg : IsBdry N pf g) :
    g (rc c) = ∑ m : Fin L.length, (sgnAt j m : K) * g (rc L[m]) := by
  rcases h with ⟨rfl, rfl, h⟩ | ⟨m, d, h1, h⟩
  · have e1 := hg.geq ((geq_iff hc (Symb.IsCusp.neg hc)).2 h)
    rw [rc_cneg hc, hg.sign (by norm_num)] at e1
    have e2 : (2 : K) * g (rc c) = 0 := by push_cast at e1; linear_combination e1
    rw [(mul_eq_zero.1 e2).resolve_left h2]
    symm
    apply Finset.sum_eq_zero
    intro m _
    have : sgnAt 0 m = 0 := by unfold sgnAt; split_ifs <;> omega
    rw [this]
    push_cast
    ring
  · obtain ⟨hm, rfl⟩ := List.getElem?_eq_some_iff.1 h1
    have hd : IsCusp L[m] := hL _ (List.getElem_mem hm)
    have hsum : ∀ e : ℤ, (∀ m' : Fin L.length, sgnAt j m' = if m' = ⟨m, hm⟩ then e else 0) →
        ∑ m' : Fin L.length, (sgnAt j m' : K) * g (rc L[m']) = e * g (rc L[m]) := by
      intro e he
      rw [Finset.sum_eq_single ⟨m, hm⟩]
      · rw [he, if_pos rfl]; rfl
      · intro m' _ hne
        rw [he, if_neg hne]
        push_cast
        ring
      · simp
    rcases h with ⟨rfl, h⟩ | ⟨rfl, rfl, h⟩
    · rw [hsum 1 (by
        intro m'
        unfold sgnAt
        simp only [Fin.ext_iff]
        split_ifs <;> omega)]
      push_cast
      rw [one_mul]
      rcases h with h | ⟨rfl, h⟩
      · exact hg.geq ((geq_iff hc hd).2 h)
      · have := hg.geq ((geq_iff hc (Symb.IsCusp.neg hd)).2 h)
        rw [rc_cneg hd, hg.sign (by norm_num)] at this
        rw [this]
        push_cast
        ring
    · rw [hsum (-1) (by
        intro m'
        unfold sgnAt
        simp only [Fin.ext_iff]
        split_ifs <;> omega)]
      have := hg.geq ((geq_iff (Symb.IsCusp.neg hc) hd).2 h)
      rw [rc_cneg hc, hg.sign (by norm_num)] at this
      push_cast at this ⊢
      linear_combination -this

/-- the values of the function of a class -/
theorem dl_value {K : Type*} [Field K] (h2 : (2 : K) ≠ 0) (hpf : pf = 0 ∨ pf = 1 ∨ pf = -1) {L : List R} (hL : LOk N pf L) (l : Fin L.length) :
    (∀ m : Fin L.length, m ≠ l → dl (K := K) N pf (rc L[l]) (rc L[m]) = 0) ∧ dl (K := K) N pf (rc L[l]) (rc L[l]) ≠ 0 := by
  classical
  have hc : ∀ m : Fin L.length, IsCusp L[m] := fun m => hL.cusp _ (List.getElem_mem m.2)
  have e1 : ∀ m : Fin L.length, GEq N (rc L[m]) (rc L[l]) → m = l := by
    intro m h
    exact Fin.ext (hL.ineq (List.getElem?_eq_getElem m.2) (List.getElem?_eq_getElem l.2) (.inl ((geq_iff (hc m) (hc l)).1 h)))
  have e2 : ∀ m : Fin L.length, pf ≠ 0 → GEq N (mob (-1) 0 0 1 (rc L[m])) (rc L[l]) → m = l := by
    intro m h0 h
    rw [← rc_cneg (hc m)] at h
    have h3 := (geq_iff (Symb.IsCusp.neg (hc m)) (hc l)).1 h
    have := hL.ineq (List.getElem?_eq_getElem l.2) (List.getElem?_eq_getElem m.2) (.inr ⟨h0, Symb.Gamma0.symm h3⟩)
    exact Fin.ext this.symm
  have refl : GEq N (rc L[l]) (rc L[l]) := ⟨1, 0, 0, 1, by norm_num, by simp, mob_one _⟩
  constructor
  · intro m hm
    unfold dl
    rw [if_neg fun h => hm (e1 m h)]
    by_cases h0 : pf = 0
    · rw [h0]; push_cast; ring
    · rw [if_neg fun h => hm (e2 m h0 h)]
      ring
  · unfold dl
    rw [if_pos refl]
    rcases hpf with rfl | rfl | rfl
    · simp
    · by_cases h : GEq N (mob (-1) 0 0 1 (rc L[l])) (rc L[l])
      · rw [if_pos h]
        push_cast
        intro h3
        apply h2
        linear_combination h3
      · rw [if_neg h]
        simp
    · rw [if_neg]
      · simp
      · intro h
        rw [← rc_cneg (hc l)] at h
        exact hL.self rfl _ (List.getElem_mem l.2) (Symb.Gamma0.symm ((geq_iff (Symb.IsCusp.neg (hc l)) (hc l)).1 h))

end idx

/-! ### the matrix -/

/-- a loop over a list with indices -/
theorem foldlM_zipIdx {α β : Type*} {n : ℕ} (m : Fin n → α) (step : β → α × ℕ → Option β) (P : ℕ → β → Prop)
    (hstep : ∀ (j : Fin n) s, P j s → ∃ s', step s (m j, (j : ℕ)) = some s' ∧ P (j + 1) s') {s0 : β} (h0 : P 0 s0) :
    ∃ s, (List.ofFn m).zipIdx.foldlM step s0 = some s ∧ P n s := by
  have key : ∀ (l : List α) (k : ℕ) (s : β), (∀ i (hi : i < l.length), ∃ h : k + i < n, l[i] = m ⟨k + i, h⟩) → P k s →
      ∃ s', (l.zipIdx k).foldlM step s = some s' ∧ P (k + l.length) s' := by
    intro l
    induction l with
    | nil => exact fun k s _ hs => ⟨s, rfl, hs⟩
    | cons a l ih =>
      intro k s hl hs
      obtain ⟨hk, ha⟩ := hl 0 (by simp)
      obtain ⟨s1, e1, h1⟩ := hstep ⟨k, hk⟩ s hs
      obtain ⟨s', e2, h2⟩ := ih (k + 1) s1 (fun i hi => by
        obtain ⟨h, e⟩ := hl (i + 1) (by simpa using hi)
        refine ⟨by omega, ?_⟩
        rw [List.getElem_cons_succ] at e
        rw [e]
        congr 2
        omega) h1
      refine ⟨s', ?_, by rw [List.length_cons, show k + (l.length + 1) = k + 1 + l.length by omega]; exact h2⟩
      rw [List.zipIdx_cons, List.foldlM_cons]
      have ha' : a = m ⟨k, hk⟩ := by simpa using ha
      rw [ha', e1]
      exact e2
  obtain ⟨s, h1, h2⟩ := key (List.ofFn m) 0 s0 (fun i hi => by
    rw [List.length_ofFn] at hi
    exact ⟨by omega, by simp⟩) h0
  exact ⟨s, h1, by simpa using h2⟩

/-- the list of rows has the entries `A` -/
structure GRep {r c : ℕ} (D : List (List ℤ)) (A : Fin r → Fin c → ℤ) : Prop where
  len : D.length = r
  row : ∀ i : Fin r, D[(i : ℕ)]? = some (List.ofFn (A i))

section grep

variable {r c : ℕ} {D : List (List ℤ)} {A : Fin r → Fin c → ℤ}

theorem entryAdd_spec (h : GRep D A) (i : Fin r) (j : Fin c) (x : ℤ) :
    ∃ D', entryAdd D (i + 1) j x = some D' ∧ GRep D' fun i' j' => A i' j' + if i' = i ∧ j' = j then x else 0 := by
  refine ⟨D.set i ((List.ofFn (A i)).set j (A i j + x)), ?_, by rw [List.length_set, h.len], fun i' => ?_⟩
  · unfold entryAdd
    rw [if_neg (by omega), Nat.add_sub_cancel, h.row i, Option.bind_some,
      List.getElem?_eq_getElem (by simp), Option.map_some]
    simp
  · by_cases hi : i' = i
    · subst hi
      rw [List.getElem?_set_self (by rw [h.len]; exact i'.2)]
      congr 1
      apply List.ext_getElem (by simp)
      intro n h1 h2
      rw [List.getElem_set]
      simp only [List.getElem_ofFn, true_and, Fin.ext_iff]
      by_cases hn : (j : ℕ) = n
      · subst hn
        simp
      · rw [if_neg hn, if_neg (by omega), add_zero]
    · rw [List.getElem?_set_ne (fun e => hi (Fin.ext e.symm)), h.row i']
      simp [hi]

theorem deltaAdd_spec (h : GRep D A) {k : ℤ} (hk : -(r : ℤ) ≤ k ∧ k ≤ r) (j : Fin c) (x : ℤ) :
    ∃ D', deltaAdd D k j x = some D' ∧ GRep D' fun i' j' => A i' j' + if j' = j then sgnAt k i' * x else 0 := by
  unfold deltaAdd
  have conv : ∀ {D' : List (List ℤ)} {A' A'' : Fin r → Fin c → ℤ}, GRep D' A' → (∀ i j, A' i j = A'' i j) → GRep D' A'' := by
    intro D' A' A'' h1 h2
    have : A' = A'' := by funext i j; exact h2 i j
    rw [← this]
    exact h1
  split_ifs with h1 h2
  · obtain ⟨D', e, hD⟩ := entryAdd_spec h ⟨k.toNat - 1, by omega⟩ j x
    refine ⟨D', ?_, conv hD fun i' j' => ?_⟩
    · rw [← e]
      congr 1
      simp only
      omega
    · congr 1
      by_cases hj : j' = j
      · rw [if_pos hj]
        unfold sgnAt
        simp only [Fin.ext_iff]
        split_ifs <;> omega
      · rw [if_neg hj, if_neg (fun hc => hj hc.2)]
  · obtain ⟨D', e, hD⟩ := entryAdd_spec h ⟨(-k).toNat - 1, by omega⟩ j (-x)
    refine ⟨D', ?_, conv hD fun i' j' => ?_⟩
    · rw [← e]
      congr 1
      simp only
      omega
    · congr 1
      by_cases hj : j' = j
      · rw [if_pos hj]
        unfold sgnAt
        simp only [Fin.ext_iff]
        split_ifs <;> omega
      · rw [if_neg hj, if_neg (fun hc => hj hc.2)]
  · refine ⟨D, rfl, conv h fun i' j' => ?_⟩
    have : sgnAt k i' = 0 := by unfold sgnAt; split_ifs <;> omega
    rw [this]
    simp

theorem GRep.drep (h : GRep D A) : Smat.Props.DRep (⟨c, D⟩ : Mat.M) (Matrix.of A) := by
  refine ⟨h.len, rfl, fun v hv => ?_, fun i j => ?_⟩
  · obtain ⟨i, hi, rfl⟩ := List.getElem_of_mem hv
    have h1 := h.row ⟨i, h.len ▸ hi⟩
    simp only at h1
    rw [List.getElem?_eq_getElem hi] at h1
    rw [Option.some.inj h1]
    simp
  · simp only [Mat.M.get, List.getD_eq_getElem?_getD, h.row i]
    simp

theorem GRep.zero (r c : ℕ) : GRep (List.replicate r (List.replicate c 0)) (fun (_ : Fin r) (_ : Fin c) => (0 : ℤ)) := by
  refine ⟨by simp, fun i => ?_⟩
  rw [List.getElem?_replicate, if_pos i.2]
  congr 1
  apply List.ext_getElem <;> simp

end grep

variable {q : ℕ} [hqf : Fact q.Prime] {N pf : ℤ} {H : Space} {x : ℤ → ℤ → Fin H.rk → ℤ} {gen : Fin H.rk → ℤ × ℤ}

/-- the matrix of the boundary map -/
theorem SpaceOk.delta (h : SpaceOk q N pf H x gen) (hpf : pf = 0 ∨ pf = 1 ∨ pf = -1) :
    ∃ (L : List R) (ja jb : Fin H.rk → ℤ) (D : Mat.M), LOk N pf L ∧ L.length ≤ 2 * H.rk ∧
      (∀ i, Idx N pf L (modsym (gen i)).1 (ja i)) ∧ (∀ i, Idx N pf L (modsym (gen i)).2 (jb i)) ∧
      H.delta = some D ∧
      Smat.Props.DRep D (Matrix.of fun (l : Fin L.length) (i : Fin H.rk) => sgnAt (jb i) l - sgnAt (ja i) l) := by
  have hN : (0 : ℤ) < N := by have := h.lev; omega
  have hc := h.basis.cusp
  have hmem : ∀ i, (modsym (gen i)).2 ∈ bdryCusps (List.ofFn fun j => modsym (gen j)) ∧
      (modsym (gen i)).1 ∈ bdryCusps (List.ofFn fun j => modsym (gen j)) := by
    intro i
    unfold bdryCusps
    simp only [List.mem_flatMap, List.mem_ofFn]
    exact ⟨⟨_, ⟨i, rfl⟩, by simp⟩, ⟨_, ⟨i, rfl⟩, by simp⟩⟩
  obtain ⟨L, js, e1, h1, h2, h3⟩ := run_idx hN h.mod hpf (cs := bdryCusps (List.ofFn fun j => modsym (gen j))) (by
    intro c hcc
    unfold bdryCusps at hcc
    simp only [List.mem_flatMap, List.mem_ofFn] at hcc
    obtain ⟨_, ⟨i, rfl⟩, hcc⟩ := hcc
    simp only [List.mem_cons, List.not_mem_nil, or_false] at hcc
    rcases hcc with rfl | rfl
    · exact (hc i).2
    · exact (hc i).1)
  choose jb b1 b2 using fun i => h2 _ (hmem i).1
  choose ja a1 a2 using fun i => h2 _ (hmem i).2
  have hlen : (bdryCusps (List.ofFn fun j => modsym (gen j))).length = 2 * H.rk := by
    unfold bdryCusps
    have : ∀ l : List (R × R), (l.flatMap fun m => [m.2, m.1]).length = 2 * l.length := by
      intro l
      induction l with
      | nil => rfl
      | cons a l ih => rw [List.flatMap_cons, List.length_append, ih, List.length_cons]; simp; omega
    rw [this, List.length_ofFn]
  obtain ⟨st, e2, h4⟩ := foldlM_zipIdx (fun j => modsym (gen j)) (deltaStep H.S.toModdata pf)
    (fun k st => st.1 = L ∧ GRep st.2 fun (l : Fin L.length) (i : Fin H.rk) => if (i : ℕ) < k then sgnAt (jb i) l - sgnAt (ja i) l else 0)
    (by
      rintro j ⟨L', D⟩ ⟨rfl, hD⟩
      simp only at hD
      obtain ⟨D1, d1, hD1⟩ := deltaAdd_spec hD (b2 j).range j 1
      obtain ⟨D2, d2, hD2⟩ := deltaAdd_spec hD1 (a2 j).range j (-1)
      refine ⟨(L', D2), ?_, rfl, ?_⟩
      · unfold deltaStep
        simp only
        rw [b1 j, Option.bind_some]
        simp only
        rw [d1, Option.bind_some, a1 j, Option.bind_some]
        simp only
        rw [d2, Option.map_some]
      · simp only
        have he : (fun (l : Fin L'.length) (i : Fin H.rk) => if (i : ℕ) < (j : ℕ) + 1 then sgnAt (jb i) l - sgnAt (ja i) l else 0) =
            fun (l : Fin L'.length) (i : Fin H.rk) => ((if (i : ℕ) < (j : ℕ) then sgnAt (jb i) l - sgnAt (ja i) l else 0) + if i = j then sgnAt (jb j) l * 1 else 0) +
              if i = j then sgnAt (ja j) l * -1 else 0 := by
          funext l i
          by_cases hij : i = j
          · subst hij
            simp
            ring
          · have : (i : ℕ) ≠ j := fun e => hij (Fin.ext e)
            by_cases hlt : (i : ℕ) < j
            · rw [if_pos (by omega), if_pos hlt, if_neg hij, if_neg hij]; ring
            · rw [if_neg (by omega), if_neg hlt, if_neg hij, if_neg hij]; ring
        rw [he]
        exact hD2)
    (s0 := (L, List.replicate L.length (List.replicate H.rk 0))) ⟨rfl, by
      have := GRep.zero L.length H.rk
      simpa using this⟩
  refine ⟨L, ja, jb, ⟨H.rk, st.2⟩, h1, by omega, a2, b2, ?_, ?_⟩
  · unfold Space.delta
    rw [h.freemods, Option.bind_some, h.sgn, e1, Option.bind_some]
    simp only
    rw [e2, Option.map_some]
  · have := h4.2.drep
    simpa using this

theorem sgnAt_abs (j : ℤ) (m : ℕ) : |sgnAt j m| ≤ 1 := by
  unfold sgnAt
  split_ifs <;> norm_num

/-- the boundary of a combination of symbols -/
theorem bdry_iff (hq : 3 < q) (hpf : pf = 0 ∨ pf = 1 ∨ pf = -1) {k : ℕ} {m : Fin k → R × R} (hm : ∀ j, IsCusp (m j).1 ∧ IsCusp (m j).2)
    {L : List R} (hL : LOk N pf L) {ja jb : Fin k → ℤ} (ha : ∀ i, Idx N pf L (m i).1 (ja i)) (hb : ∀ i, Idx N pf L (m i).2 (jb i))
    (v : Fin k → ZMod q) :
    Elim.mq q (Matrix.of fun (l : Fin L.length) (i : Fin k) => sgnAt (jb i) l - sgnAt (ja i) l) *ᵥ v = 0 ↔ IsCuspidal q N pf m v := by
  have h2 : (2 : ZMod q) ≠ 0 := by
    intro h
    have : ((2 : ℕ) : ZMod q) = 0 := by exact_mod_cast h
    rw [ZMod.natCast_eq_zero_iff] at this
    have := Nat.le_of_dvd (by norm_num) this
    omega
  have key : ∀ g : OnePoint ℚ → ZMod q, IsBdry N pf g → ∑ j, v j * (g (rc (m j).2) - g (rc (m j).1)) =
      ∑ l : Fin L.length, (Elim.mq q (Matrix.of fun (l : Fin L.length) (i : Fin k) => sgnAt (jb i) l - sgnAt (ja i) l) *ᵥ v) l * g (rc L[l]) := by
    intro g hg
    have e : ∀ j, v j * (g (rc (m j).2) - g (rc (m j).1)) =
        ∑ l : Fin L.length, ((sgnAt (jb j) l - sgnAt (ja j) l : ℤ) : ZMod q) * v j * g (rc L[l]) := by
      intro j
      rw [(hb j).value h2 hL.cusp (hm j).2 hg, (ha j).value h2 hL.cusp (hm j).1 hg, ← Finset.sum_sub_distrib, Finset.mul_sum]
      apply Finset.sum_congr rfl
      intro l _
      push_cast
      ring
    rw [Finset.sum_congr rfl fun j _ => e j, Finset.sum_comm]
    apply Finset.sum_congr rfl
    intro l _
    rw [← Finset.sum_mul]
    rfl
  constructor
  · intro h g hg
    rw [key g hg, h]
    simp
  · intro h
    funext l
    have h1 := h _ (dl_isBdry (N := N) hpf (rc L[l]))
    rw [key _ (dl_isBdry hpf _)] at h1
    obtain ⟨d1, d2⟩ := dl_value (K := ZMod q) h2 hpf hL l
    rw [Finset.sum_eq_single l (fun b _ hb => by rw [d1 b hb, mul_zero]) (by simp)] at h1
    exact (mul_eq_zero.1 h1).resolve_right d2

theorem SpaceOk.kern (h : SpaceOk q N pf H x gen) (hq : 3 < q) (hpf : pf = 0 ∨ pf = 1 ∨ pf = -1) (X : Marith.XGcd) (t : T)
    {sparse : Elim.St → Bool} (hsp : SparseOk sparse) {rref : Mat.M → Mat.Ech} (hRr : RrefOk q rref) {fuel : ℕ}
    (hf : (2 * H.rk + 1) * (3 * H.rk + 1) ≤ fuel) :
    ∃ s k, ∃ (B : Matrix (Fin H.rk) (Fin k) ℤ) (piv : Fin k → Fin H.rk), H.kern X t q sparse rref fuel = some s ∧
      Elim.SubOk q s B piv ∧ ∀ v, Elim.InSpan q B v ↔ IsCuspidal q N pf (fun j => modsym (gen j)) v := by
  obtain ⟨L, ja, jb, D, h1, h2, h3, h4, e1, h5⟩ := h.delta hpf
  obtain ⟨sm, e2, h6⟩ := Smat.Props.C47_ofMat h5
  obtain ⟨s, k, B, piv, e3, h7, h8⟩ := Elim.C73_kernel X t h6 (by
    intro i j
    have a1 := sgnAt_abs (jb j) i
    have a2 := sgnAt_abs (ja j) i
    simp only [Matrix.of_apply]
    rw [abs_le] at a1 a2
    rw [abs_lt]
    constructor <;> omega) hsp hRr (fuel := fuel) (le_trans (Nat.mul_le_mul (by omega) (by omega)) hf)
  refine ⟨s, k, B, piv, ?_, h7, fun v => ?_⟩
  · unfold Space.kern
    rw [e1, Option.bind_some, e2, Option.bind_some, e3]
  · rw [h8, ← bdry_iff hq hpf h.basis.cusp h1 h3 h4]

end Eclib.Hom
