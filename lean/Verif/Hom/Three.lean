import Verif.Hom.Two
import Verif.Smat.MulProps
import Mathlib.Algebra.BigOperators.Pi
import Mathlib.Algebra.CharP.Basic
import Mathlib.Data.ZMod.Basic

/-!
# The 3-term relations
-/

set_option linter.unusedSectionVars false

namespace Eclib.Hom

open Symb (Symbdata SymbOK)
open Symb.SymbSpec
open Svec (T SV)
open Smat (SM Rep)
open Smat.Props (SRep)

/-! ### one relation -/

/-- the coefficients of the generator with signed number `z` -/
def unitv {g : ℕ} (z : ℤ) (j : Fin g) : ℤ := if z = j + 1 then 1 else if z = -(j + 1 : ℤ) then -1 else 0

theorem unitv_abs {g : ℕ} (z : ℤ) (j : Fin g) : |unitv z j| ≤ 1 := by
  unfold unitv
  split_ifs <;> norm_num

theorem unitv_sum {K : Type*} [Field K] {g : ℕ} (y : ℕ → K) (z : ℤ) (hz : |z| ≤ g) :
    ∑ j : Fin g, ((unitv z j : ℤ) : K) * y j = sval y z := by
  rw [abs_le] at hz
  rcases lt_trichotomy z 0 with h | rfl | h
  · rw [Finset.sum_eq_single (⟨(-z).toNat - 1, by omega⟩ : Fin g)]
    · unfold unitv sval
      simp only
      rw [if_neg (by omega), if_pos (by omega), if_neg (by omega), if_pos h]
      simp
    · intro b _ hb
      have : z ≠ -((b : ℕ) + 1 : ℤ) := fun e => hb (Fin.ext (by simp; omega))
      unfold unitv
      rw [if_neg (by omega), if_neg this]
      simp
    · intro h; exact absurd (Finset.mem_univ _) h
  · rw [sval_zero]
    apply Finset.sum_eq_zero
    intro j _
    unfold unitv
    rw [if_neg (by omega), if_neg (by omega)]
    simp
  · rw [Finset.sum_eq_single (⟨z.toNat - 1, by omega⟩ : Fin g)]
    · unfold unitv sval
      simp only
      rw [if_pos (by omega), if_pos h]
      simp
    · intro b _ hb
      have : z ≠ (b : ℕ) + 1 := fun e => hb (Fin.ext (by simp; omega))
      unfold unitv
      rw [if_neg this, if_neg (by omega)]
      simp
    · intro h; exact absurd (Finset.mem_univ _) h

theorem add_d (v : SV) (i a : ℤ) : (Svec.add v i a).d = v.d := by
  unfold Svec.add
  split_ifs
  · rfl
  · cases Svec.find v.entries i with
    | none => rfl
    | some x => dsimp only; split_ifs <;> rfl

theorem addFix_spec {g : ℕ} {ci : List ℤ} {k : ℕ} (hk : k < ci.length) (hb : |ci.getD k 0| ≤ g) {v : SV} {a : Fin g → ℤ}
    (hv : SRep True v a) : ∃ v', addFix ci v k = some v' ∧ SRep True v' (a + unitv (ci.getD k 0)) := by
  unfold addFix
  rw [getAt_nat hk, Option.map_some]
  refine ⟨_, rfl, ?_⟩
  generalize ci.getD k 0 = z at hb
  by_cases h : z = 0
  · subst h
    have : (unitv 0 : Fin g → ℤ) = 0 := by
      funext j; unfold unitv; rw [if_neg (by omega), if_neg (by omega)]; rfl
    rw [this, add_zero, if_neg (by simp)]
    exact hv
  · rw [if_pos h]
    have hr : 1 ≤ |z| ∧ |z| ≤ (v.d : ℤ) := ⟨Int.one_le_abs h, by rw [hv.dim]; exact hb⟩
    obtain ⟨h1, h2⟩ := Svec.Props.C15_add v hv.wf |z| (if z > 0 then 1 else -1) hr
    refine Smat.Props.SRep.of ?_ h1 (fun j => ?_) (fun _ => Svec.Props.noZero_add v _ _ (hv.is.nz trivial))
    · rw [← hv.dim]
      exact add_d v _ _
    · rw [h2, hv.val]
      change _ = a j + unitv z j
      congr 1
      unfold unitv
      rcases lt_or_gt_of_ne h with hz | hz
      · rw [abs_of_neg hz, if_neg (by omega : ¬ z > 0), if_neg (by omega : ¬ z = (j : ℕ) + 1)]
        exact if_congr (by omega) rfl rfl
      · rw [abs_of_pos hz, if_pos hz, if_neg (by omega : ¬ z = -((j : ℕ) + 1 : ℤ))]
        exact if_congr (by omega) rfl rfl

theorem exists_ne_zero {g : ℕ} {v : SV} {a : Fin g → ℤ} (hv : SRep True v a) (h0 : Svec.size v ≠ 0) : ∃ j, a j ≠ 0 := by
  have hnz : Svec.Props.NoZero v := hv.is.nz trivial
  obtain ⟨x, hx⟩ : ∃ x, x ∈ v.entries := List.exists_mem_of_ne_nil _ (fun h => h0 (by unfold Svec.size; rw [h]; rfl))
  have hxr := hv.wf.range x hx
  have hxv : Svec.elem v x.1 = x.2 := by
    unfold Svec.elem
    rw [Svec.find_of_mem _ hv.wf.sorted x.1 x.2 hx]
    rfl
  obtain ⟨j, hj⟩ : ∃ j : Fin g, ((j : ℕ) + 1 : ℤ) = x.1 := by
    have := hv.dim
    exact ⟨⟨x.1.toNat - 1, by omega⟩, by simp; omega⟩
  refine ⟨j, ?_⟩
  rw [← hv.val, hj, hxv]
  exact hnz x hx

theorem makePrimitive_spec (t : T) {g : ℕ} {v : SV} {a : Fin g → ℤ} (hv : SRep True v a) (h0 : Svec.size v ≠ 0)
    (h3 : ∀ j, |a j| ≤ 3) : ∃ (r : SV) (c : ℤ) (b : Fin g → ℤ), Svec.makePrimitive t v = some (r, c) ∧ SRep True r b ∧
      (∀ j, b j * c = a j) ∧ 1 ≤ c ∧ c ≤ 3 ∧ ∀ j, |b j| ≤ 3 := by
  have hnz : Svec.Props.NoZero v := hv.is.nz trivial
  obtain ⟨r, c, e, hc, hwf, hd, hm, _⟩ := Svec.Props.C15_makePrimitive t v hv.wf hnz
  have hz : Svec.Props.NoZero r := by
    have := (Svec.Props.C16_step_partial (.makePrimitive t) v hv.wf hnz trivial).2.1
    simp only [Svec.Props.Op.run] at this
    rw [e] at this
    exact this
  have hdim : r.d = g := hd.trans hv.dim
  have hval : ∀ j : Fin g, Svec.elem r ((j : ℕ) + 1 : ℤ) * c = a j := fun j => by rw [hm, hv.val]
  obtain ⟨j, hne⟩ := exists_ne_zero hv h0
  have hc0 : 0 ≤ c := by rw [hc]; exact (Svec.Props.C15_content t v hv.wf).1
  have hc1 : c ≠ 0 := fun h => hne (by rw [← hval j, h, mul_zero])
  have hc3 : c ≤ 3 := by
    have h1 : c ∣ a j := ⟨_, by rw [← hval j]; ring⟩
    have h2 := Int.le_of_dvd (abs_pos.2 hne) ((dvd_abs _ _).2 h1)
    exact h2.trans (h3 j)
  refine ⟨r, c, fun j => Svec.elem r ((j : ℕ) + 1 : ℤ), e, Smat.Props.SRep.of hdim hwf (fun j => rfl) (fun _ => hz), hval,
    by omega, hc3, fun j => ?_⟩
  have h1 := h3 j
  rw [← hval j, abs_mul, abs_of_nonneg hc0] at h1
  change |Svec.elem r ((j : ℕ) + 1 : ℤ)| ≤ 3
  nlinarith [abs_nonneg (Svec.elem r ((j : ℕ) + 1 : ℤ)), (by omega : 1 ≤ c)]

/-! ### the loop -/

section loop

variable {q : ℕ} [Fact q.Prime]

/-- the value of the function with values `y` on the generators -/
abbrev phi (ci : List ℤ) (y : ℕ → ZMod q) (i : ℕ) : ZMod q := sval y (ci.getD i 0)

/-- the 3-term relation at `i` -/
abbrev rel3 (S : Symbdata) (ci : List ℤ) (y : ℕ → ZMod q) (i : ℕ) : Prop :=
  phi ci y i + phi ci y (mt S i) + phi ci y (mt S (mt S i)) = 0

/-- the symbols marked with the relation at `k` -/
def Orb (S : Symbdata) (pf : ℤ) (k i : ℕ) : Prop :=
  (i = k ∨ i = mt S k ∨ i = mt S (mt S k)) ∨ pf ≠ 0 ∧ (i = mR S k ∨ i = mR S (mt S k) ∨ i = mR S (mt S (mt S k)))

/-- the relation at `k` is not trivial -/
def Nontriv (S : Symbdata) (ci : List ℤ) (k : ℕ) : Prop :=
  ∃ y : ℕ → ℚ, sval y (ci.getD k 0) + sval y (ci.getD (mt S k) 0) + sval y (ci.getD (mt S (mt S k)) 0) ≠ 0

/-- the symbols `ks` have different orbits and non-trivial relations -/
structure Reps (S : Symbdata) (pf : ℤ) (ci : List ℤ) (ks : List ℕ) : Prop where
  lt : ∀ k ∈ ks, k < num S
  nontriv : ∀ k ∈ ks, Nontriv S ci k
  disjoint : ks.Pairwise fun a b => ¬ Orb S pf a b

/-- the invariant of the loop over the 3-term relations -/
structure Inv3 (q : ℕ) [Fact q.Prime] (S : Symbdata) (pf : ℤ) (ci : List ℤ) (g : ℕ) (st : Three) (m : ℕ) : Prop where
  lc : st.check.length = num S
  done : ∀ i < m, st.check.getD i 0 ≠ 0
  ct : ∀ i < num S, st.check.getD i 0 ≠ 0 → st.check.getD (mt S i) 0 ≠ 0
  cR : pf ≠ 0 → ∀ i < num S, st.check.getD i 0 ≠ 0 → st.check.getD (mR S i) 0 ≠ 0
  reps : ∃ ks : List ℕ, ks.length = st.numrel ∧ Reps S pf ci ks ∧ ∀ k ∈ ks, st.check.getD k 0 ≠ 0
  rep : ∃ A : Matrix (Fin (g + 10)) (Fin g) ℤ, Rep True st.relmat A ∧ (∀ i j, |A i j| ≤ 3) ∧
    (∀ i, st.numrel ≤ i.val → A i = 0) ∧
    (st.fits g → ∀ y : ℕ → ZMod q, (∀ i, ∑ j, ((A i j : ℤ) : ZMod q) * y j = 0) ↔
      ∀ i < num S, st.check.getD i 0 ≠ 0 → rel3 S ci y i)

variable {N : ℤ} (hN : 1 < N) {S : Symbdata} (hS : SymbOK N S) {pf : ℤ} {ci : List ℤ} {g : ℕ}

include hN hS

theorem mark_spec {check : List ℤ} (hl : check.length = num S) {k : ℕ} (hk : k < num S) :
    ∃ check', mark S pf check k = some check' ∧ check'.length = num S ∧
      ∀ i, check'.getD i 0 = if i = k ∨ pf ≠ 0 ∧ i = mR S k then 1 else check.getD i 0 := by
  have hk' : k < check.length := by rw [hl]; exact hk
  unfold mark
  rw [setAt_nat hk', Option.bind_some]
  by_cases hpf : pf = 0
  · rw [if_neg (not_not.2 hpf)]
    exact ⟨_, rfl, by rw [List.length_set, hl], fun i => by rw [getD_set' hk']; simp [hpf]⟩
  · rw [if_pos hpf, (mR_spec hN hS hk).1, Option.bind_some]
    have h2 : mR S k < (check.set k 1).length := by rw [List.length_set, hl]; exact (mR_spec hN hS hk).2.1
    rw [setAt_nat h2]
    refine ⟨_, rfl, by rw [List.length_set, List.length_set, hl], fun i => ?_⟩
    rw [getD_set' h2, getD_set' hk']
    by_cases h3 : i = mR S k <;> by_cases h4 : i = k <;> simp [h3, h4, hpf]

omit hN hS in
theorem Orb.self (k : ℕ) : Orb S pf k k := Or.inl (Or.inl rfl)

theorem Orb.next {k i : ℕ} (hk : k < num S) (h : Orb S pf k i) : Orb S pf k (mt S i) := by
  have k1 := (mt_spec hN hS hk).2.1
  have k2 := (mt_spec hN hS k1).2.1
  rcases h with (rfl | rfl | rfl) | ⟨hpf, rfl | rfl | rfl⟩
  · exact Or.inl (Or.inr (Or.inl rfl))
  · exact Or.inl (Or.inr (Or.inr rfl))
  · exact Or.inl (Or.inl (mt_mt_mt hN hS hk))
  · exact Or.inr ⟨hpf, Or.inr (Or.inr (mR_mt_mt hN hS hk).symm)⟩
  · exact Or.inr ⟨hpf, Or.inl (by rw [← mR_mt_mt hN hS k1, mt_mt_mt hN hS hk])⟩
  · exact Or.inr ⟨hpf, Or.inr (Or.inl (by rw [← mR_mt_mt hN hS k2, mt_mt_mt hN hS hk]))⟩

theorem Orb.R (hpf : pf ≠ 0) {k i : ℕ} (hk : k < num S) (h : Orb S pf k i) : Orb S pf k (mR S i) := by
  have k1 := (mt_spec hN hS hk).2.1
  have k2 := (mt_spec hN hS k1).2.1
  rcases h with (rfl | rfl | rfl) | ⟨hpf, rfl | rfl | rfl⟩
  · exact Or.inr ⟨hpf, Or.inl rfl⟩
  · exact Or.inr ⟨hpf, Or.inr (Or.inl rfl)⟩
  · exact Or.inr ⟨hpf, Or.inr (Or.inr rfl)⟩
  · exact Or.inl (Or.inl (mR_mR hN hS hk))
  · exact Or.inl (Or.inr (Or.inl (mR_mR hN hS k1)))
  · exact Or.inl (Or.inr (Or.inr (mR_mR hN hS k2)))

theorem Orb.checked {check : List ℤ} (ct : ∀ i < num S, check.getD i 0 ≠ 0 → check.getD (mt S i) 0 ≠ 0)
    (cR : pf ≠ 0 → ∀ i < num S, check.getD i 0 ≠ 0 → check.getD (mR S i) 0 ≠ 0) {k i : ℕ} (hk : k < num S)
    (hc : check.getD k 0 ≠ 0) (h : Orb S pf k i) : check.getD i 0 ≠ 0 := by
  have k1 := (mt_spec hN hS hk).2.1
  have k2 := (mt_spec hN hS k1).2.1
  rcases h with (rfl | rfl | rfl) | ⟨hpf, rfl | rfl | rfl⟩
  · exact hc
  · exact ct _ hk hc
  · exact ct _ k1 (ct _ hk hc)
  · exact cR hpf _ hk hc
  · exact cR hpf _ k1 (ct _ hk hc)
  · exact cR hpf _ k2 (ct _ k1 (ct _ hk hc))

theorem rel3_t (y : ℕ → ZMod q) {i : ℕ} (hi : i < num S) : rel3 S ci y (mt S i) ↔ rel3 S ci y i := by
  unfold rel3
  rw [mt_mt_mt hN hS hi]
  constructor <;> intro h <;> linear_combination h

theorem rel3_R {y : ℕ → ZMod q} {e : ZMod q} (he : e ≠ 0) (hR : ∀ i < num S, phi ci y (mR S i) = e * phi ci y i)
    {i : ℕ} (hi : i < num S) : rel3 S ci y (mR S i) ↔ rel3 S ci y i := by
  have k1 := (mt_spec hN hS hi).2.1
  have k2 := (mt_spec hN hS k1).2.1
  have e1 : mt S (mR S i) = mR S (mt S (mt S i)) := (mR_mt_mt hN hS hi).symm
  have e2 : mt S (mt S (mR S i)) = mR S (mt S i) := by
    rw [e1, ← mR_mt_mt hN hS k2, mt_mt_mt hN hS hi]
  unfold rel3
  rw [e2, e1, hR i hi, hR _ k1, hR _ k2]
  constructor <;> intro h
  · have : e * (phi ci y i + phi ci y (mt S i) + phi ci y (mt S (mt S i))) = 0 := by linear_combination h
    exact (mul_eq_zero.1 this).resolve_left he
  · linear_combination e * h

/-- the relations at the marked symbols are the relation at `k` -/
theorem rel3_orb {y : ℕ → ZMod q}
    (hR : pf ≠ 0 → ∃ e : ZMod q, e ≠ 0 ∧ ∀ i < num S, phi ci y (mR S i) = e * phi ci y i) {k i : ℕ} (hk : k < num S)
    (h : Orb S pf k i) : rel3 S ci y i ↔ rel3 S ci y k := by
  have k1 := (mt_spec hN hS hk).2.1
  have k2 := (mt_spec hN hS k1).2.1
  rcases h with (rfl | rfl | rfl) | ⟨hpf, h⟩
  · rfl
  · exact rel3_t hN hS y hk
  · exact (rel3_t hN hS y k1).trans (rel3_t hN hS y hk)
  · obtain ⟨e, he, hR⟩ := hR hpf
    rcases h with rfl | rfl | rfl
    · exact rel3_R hN hS he hR hk
    · exact (rel3_R hN hS he hR k1).trans (rel3_t hN hS y hk)
    · exact (rel3_R hN hS he hR k2).trans ((rel3_t hN hS y k1).trans (rel3_t hN hS y hk))

omit hN hS in
theorem if3 {P Q R : Prop} [Decidable P] [Decidable Q] [Decidable R] (x : ℤ) :
    (if P then (1 : ℤ) else if Q then 1 else if R then 1 else x) ≠ 0 ↔ x ≠ 0 ∨ (P ∨ Q ∨ R) := by
  by_cases hP : P <;> by_cases hQ : Q <;> by_cases hR : R <;> simp [hP, hQ, hR]

omit hN hS in
theorem orb_iff {k i : ℕ} : (i = mt S (mt S k) ∨ pf ≠ 0 ∧ i = mR S (mt S (mt S k))) ∨
    (i = mt S k ∨ pf ≠ 0 ∧ i = mR S (mt S k)) ∨ (i = k ∨ pf ≠ 0 ∧ i = mR S k) ↔ Orb S pf k i := by
  unfold Orb
  constructor
  · rintro ((h | ⟨h, h'⟩) | (h | ⟨h, h'⟩) | (h | ⟨h, h'⟩))
    exacts [Or.inl (Or.inr (Or.inr h)), Or.inr ⟨h, Or.inr (Or.inr h')⟩, Or.inl (Or.inr (Or.inl h)),
      Or.inr ⟨h, Or.inr (Or.inl h')⟩, Or.inl (Or.inl h), Or.inr ⟨h, Or.inl h'⟩]
  · rintro ((h | h | h) | ⟨hp, h | h | h⟩)
    exacts [Or.inr (Or.inr (Or.inl h)), Or.inr (Or.inl (Or.inl h)), Or.inl (Or.inl h),
      Or.inr (Or.inr (Or.inr ⟨hp, h⟩)), Or.inr (Or.inl (Or.inr ⟨hp, h⟩)), Or.inl (Or.inr ⟨hp, h⟩)]

variable (hq : 3 < q) (hl : ci.length = num S) (hb : ∀ i < num S, |ci.getD i 0| ≤ g)
  (hR : ∀ y : ℕ → ZMod q, pf ≠ 0 → ∃ e : ZMod q, e ≠ 0 ∧ ∀ i < num S, phi ci y (mR S i) = e * phi ci y i)

include hq hl hb hR

theorem three_spec (t : T) {st : Three} {k : ℕ} (hk : k < num S) (hi : Inv3 q S pf ci g st k) :
    ∃ st', three t S pf ci g (g + 10) st k = some st' ∧ Inv3 q S pf ci g st' (k + 1) := by
  have k1 := (mt_spec hN hS hk).2.1
  have k2 := (mt_spec hN hS k1).2.1
  unfold three
  rw [getAt_nat (by rw [hi.lc]; exact hk), Option.bind_some]
  by_cases h0 : st.check.getD k 0 = 0
  · rw [if_pos h0, (mt_spec hN hS hk).1, Option.bind_some, (mt_spec hN hS k1).1, Option.bind_some]
    obtain ⟨c1, e1, l1, v1⟩ := mark_spec hN hS (pf := pf) hi.lc hk
    obtain ⟨c2, e2, l2, v2⟩ := mark_spec hN hS (pf := pf) l1 k1
    obtain ⟨c3, e3, l3, v3⟩ := mark_spec hN hS (pf := pf) l2 k2
    have ec : [(k : ℤ), (mt S k : ℤ), (mt S (mt S k) : ℤ)].foldlM (mark S pf) st.check = some c3 := by
      simp [List.foldlM_cons, e1, e2, e3]
    have hc : ∀ i, c3.getD i 0 ≠ 0 ↔ st.check.getD i 0 ≠ 0 ∨ Orb S pf k i := by
      intro i
      rw [v3, v2, v1]
      rw [if3, orb_iff]
    obtain ⟨w1, f1, s1⟩ := addFix_spec (g := g) (ci := ci) (k := k) (by rw [hl]; exact hk) (hb k hk) (Smat.Props.srep_zero g)
    obtain ⟨w2, f2, s2⟩ := addFix_spec (g := g) (ci := ci) (k := mt S k) (by rw [hl]; exact k1) (hb _ k1) s1
    obtain ⟨w3, f3, s3⟩ := addFix_spec (g := g) (ci := ci) (k := mt S (mt S k)) (by rw [hl]; exact k2) (hb _ k2) s2
    have ef : [(k : ℤ), (mt S k : ℤ), (mt S (mt S k) : ℤ)].foldlM (addFix ci) (Svec.zero g) = some w3 := by
      simp [List.foldlM_cons, f1, f2, f3]
    rw [ec, Option.bind_some, ef, Option.bind_some]
    set a : Fin g → ℤ := 0 + unitv (ci.getD k 0) + unitv (ci.getD (mt S k) 0) + unitv (ci.getD (mt S (mt S k)) 0) with ha
    have ha3 : ∀ j, |a j| ≤ 3 := by
      intro j
      have h1 := abs_le.1 (unitv_abs (ci.getD k 0) j)
      have h2 := abs_le.1 (unitv_abs (ci.getD (mt S k) 0) j)
      have h3 := abs_le.1 (unitv_abs (ci.getD (mt S (mt S k)) 0) j)
      rw [ha, abs_le]
      simp only [Pi.add_apply, Pi.zero_apply]
      constructor <;> omega
    have hsum : ∀ y : ℕ → ZMod q, (∑ j, ((a j : ℤ) : ZMod q) * y j = 0) ↔ rel3 S ci y k := by
      intro y
      unfold rel3 phi
      rw [← unitv_sum y _ (hb k hk), ← unitv_sum y _ (hb _ k1), ← unitv_sum y _ (hb _ k2), ← Finset.sum_add_distrib,
        ← Finset.sum_add_distrib]
      apply Eq.congr _ rfl
      apply Finset.sum_congr rfl
      intro j _
      rw [ha]
      simp only [Pi.add_apply, Pi.zero_apply]
      push_cast
      ring
    have done : ∀ i < k + 1, c3.getD i 0 ≠ 0 := by
      intro i h
      rw [hc]
      rcases Nat.lt_succ_iff_lt_or_eq.1 h with h' | rfl
      · exact Or.inl (hi.done i h')
      · exact Or.inr (Orb.self _)
    have ct : ∀ i < num S, c3.getD i 0 ≠ 0 → c3.getD (mt S i) 0 ≠ 0 := by
      intro i hin h
      rw [hc] at h ⊢
      exact h.imp (hi.ct i hin) (Orb.next hN hS hk)
    have cR : pf ≠ 0 → ∀ i < num S, c3.getD i 0 ≠ 0 → c3.getD (mR S i) 0 ≠ 0 := by
      intro hpf i hin h
      rw [hc] at h ⊢
      exact h.imp (hi.cR hpf i hin) (Orb.R hN hS hpf hk)
    obtain ⟨ks, ks1, ks2, ks3⟩ := hi.reps
    have hrel : ∀ y : ℕ → ZMod q, (∀ i < num S, c3.getD i 0 ≠ 0 → rel3 S ci y i) ↔
        (∀ i < num S, st.check.getD i 0 ≠ 0 → rel3 S ci y i) ∧ rel3 S ci y k := by
      intro y
      constructor
      · intro h
        exact ⟨fun i hin hc' => h i hin ((hc i).2 (Or.inl hc')), h k hk ((hc k).2 (Or.inr (Orb.self k)))⟩
      · rintro ⟨h1, h2⟩ i hin hc'
        rcases (hc i).1 hc' with h | h
        · exact h1 i hin h
        · exact (rel3_orb hN hS (hR y) hk h).2 h2
    obtain ⟨A, hA, hA3, hA0, hAr⟩ := hi.rep
    by_cases hsz : Svec.size w3 = 0
    · rw [if_neg (not_not.2 hsz)]
      refine ⟨_, rfl, l3, done, ct, cR, ⟨ks, ks1, ks2, fun k h => (hc k).2 (Or.inl (ks3 k h))⟩, A, hA, hA3, hA0, fun hf y => ?_⟩
      rw [hrel, hAr hf y]
      have ha0 : a = 0 := by
        funext j
        rw [← s3.val]
        unfold Svec.elem
        have he : w3.entries = [] := List.length_eq_zero_iff.1 hsz
        rw [he]
        rfl
      have : rel3 S ci y k := by
        rw [← hsum, ha0]
        simp
      exact ⟨fun h => ⟨h, this⟩, fun h => h.1⟩
    · rw [if_pos hsz]
      obtain ⟨r, c, b, ep, hr, hbc, c1', c3', hb3⟩ := makePrimitive_spec t s3 hsz ha3
      have hcu : ((c : ℤ) : ZMod q) ≠ 0 := by
        intro h
        rw [ZMod.intCast_zmod_eq_zero_iff_dvd] at h
        have := Int.le_of_dvd (by omega) h
        omega
      have hsb : ∀ y : ℕ → ZMod q, (∑ j, ((b j : ℤ) : ZMod q) * y j = 0) ↔ rel3 S ci y k := by
        intro y
        rw [← hsum]
        have : ∑ j, ((a j : ℤ) : ZMod q) * y j = (c : ZMod q) * ∑ j, ((b j : ℤ) : ZMod q) * y j := by
          rw [Finset.mul_sum]
          apply Finset.sum_congr rfl
          intro j _
          rw [← hbc j]
          push_cast
          ring
        rw [this, mul_eq_zero]
        exact ⟨fun h => Or.inr h, fun h => h.resolve_left hcu⟩
      have hreps : ∃ ks : List ℕ, ks.length = st.numrel + 1 ∧ Reps S pf ci ks ∧ ∀ k ∈ ks, c3.getD k 0 ≠ 0 := by
        refine ⟨ks ++ [k], by simp [ks1], ⟨?_, ?_, ?_⟩, ?_⟩
        · intro k' hk'
          rcases List.mem_append.1 hk' with h | h
          · exact ks2.lt k' h
          · rw [List.mem_singleton.1 h]; exact hk
        · intro k' hk'
          rcases List.mem_append.1 hk' with h | h
          · exact ks2.nontriv k' h
          · rw [List.mem_singleton.1 h]
            obtain ⟨j, hj⟩ := exists_ne_zero s3 hsz
            refine ⟨fun b => if b = j then 1 else 0, ?_⟩
            rw [← unitv_sum _ _ (hb k hk), ← unitv_sum _ _ (hb _ k1), ← unitv_sum _ _ (hb _ k2), ← Finset.sum_add_distrib,
              ← Finset.sum_add_distrib, Finset.sum_eq_single j]
            · simp only [if_true, mul_one]
              have : ((a j : ℤ) : ℚ) ≠ 0 := by exact_mod_cast hj
              intro h0
              apply this
              rw [ha]
              simp only [Pi.add_apply, Pi.zero_apply]
              push_cast
              rw [zero_add]
              exact h0
            · intro b _ hbj
              have : ¬ (b : ℕ) = j := fun h => hbj (Fin.ext h)
              simp [this]
            · intro h; exact absurd (Finset.mem_univ _) h
        · rw [List.pairwise_append]
          refine ⟨ks2.disjoint, List.pairwise_singleton _ _, fun b hb' c hc' ho => ?_⟩
          rw [List.mem_singleton.1 hc'] at ho
          exact Orb.checked hN hS hi.ct hi.cR (ks2.lt b hb') (ks3 b hb') ho h0
        · intro k' hk'
          rw [hc]
          rcases List.mem_append.1 hk' with h | h
          · exact Or.inl (ks3 k' h)
          · rw [List.mem_singleton.1 h]; exact Or.inr (Orb.self k)
      unfold store
      rw [ep, Option.bind_some]
      by_cases hm : st.numrel + 1 ≤ g + 10
      · rw [if_pos hm]
        obtain ⟨m', em, hm'⟩ := Smat.Props.C47_setrow hA ⟨st.numrel, by omega⟩ hr
        simp only at em
        rw [em]
        refine ⟨_, rfl, l3, done, ct, cR, hreps, _, hm', ?_, ?_, ?_⟩
        · intro i j
          rw [Matrix.updateRow_apply]
          split_ifs
          · exact hb3 j
          · exact hA3 i j
        · intro i hni
          simp only at hni
          have : i ≠ ⟨st.numrel, by omega⟩ := fun h => by rw [h] at hni; simp at hni
          rw [Matrix.updateRow_ne this]
          exact hA0 i (by omega)
        · intro _ y
          rw [hrel, ← hAr (by unfold Three.fits; omega) y, ← hsb y]
          constructor
          · intro h
            refine ⟨fun i => ?_, ?_⟩
            · by_cases hin : i = ⟨st.numrel, by omega⟩
              · rw [hA0 i (by rw [hin])]
                simp
              · have := h i
                rwa [Matrix.updateRow_ne hin] at this
            · have := h ⟨st.numrel, by omega⟩
              rwa [Matrix.updateRow_self] at this
          · rintro ⟨h1, h2⟩ i
            by_cases hin : i = ⟨st.numrel, by omega⟩
            · rw [hin, Matrix.updateRow_self]
              exact h2
            · rw [Matrix.updateRow_ne hin]
              exact h1 i
      · rw [if_neg hm]
        exact ⟨_, rfl, l3, done, ct, cR, hreps, A, hA, hA3, fun i hni => hA0 i (by simp only at hni; omega),
          fun hf => absurd hf (by unfold Three.fits; exact hm)⟩
  · rw [if_neg h0]
    refine ⟨st, rfl, { hi with done := fun i h => ?_ }⟩
    rcases Nat.lt_succ_iff_lt_or_eq.1 h with h' | rfl
    · exact hi.done i h'
    · exact h0

/-- the loop over the 3-term relations -/
theorem threeTerm_spec (t : T) : ∃ st, threeTerm t S pf ci g = some st ∧ Inv3 q S pf ci g st (num S) := by
  have key : ∀ m ≤ num S, ∃ st, (List.range m).foldlM (three t S pf ci g (g + 10))
      ⟨List.replicate (num S) 0, Smat.new (g + 10) g, 0⟩ = some st ∧ Inv3 q S pf ci g st m := by
    intro m
    induction m with
    | zero =>
      refine fun _ => ⟨_, rfl, by simp, by simp, by simp, by simp,
        ⟨[], rfl, ⟨by simp, by simp, List.Pairwise.nil⟩, by simp⟩, 0, Smat.Props.C47_new _ _, by simp, fun _ _ => rfl, fun _ y => ?_⟩
      simp
    | succ m ih =>
      intro hm
      obtain ⟨st, e, hi⟩ := ih (by omega)
      rw [List.range_succ, List.foldlM_append, e]
      obtain ⟨st', e', hi'⟩ := three_spec hN hS hq hl hb hR t (by omega) hi
      exact ⟨st', by simpa using e', hi'⟩
  exact key _ le_rfl

end loop

end Eclib.Hom
