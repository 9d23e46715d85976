import Mathlib.GroupTheory.Coset.Card
import Verif.Pmod.Relation
import Verif.Pmod.IsoModel

/-!
# merge_points_2 and my_isomorphism_type find a basis
-/

namespace Eclib.Pmod

set_option linter.unusedSectionVars false

variable {G : Type} [AddCommGroup G] [DecidableEq G] {κ : Type} [DecidableEq κ]
variable {K : Type} [Monoid K] [DecidableEq K]

/-- what is used of the Weil pairing `e_N`: it is linear in the second variable and alternating on
points killed by `N` (nothing is said about other points, and non-degeneracy is not used) -/
structure WeilOk (wp : G → G → ℤ → K) : Prop where
  add_right : ∀ (N : ℤ) (S T T' : G), 0 < N → N • S = 0 → N • T = 0 → N • T' = 0 →
    wp S (T + T') N = wp S T N * wp S T' N
  zero_right : ∀ (N : ℤ) (S : G), 0 < N → N • S = 0 → wp S 0 N = 1
  self : ∀ (N : ℤ) (S : G), 0 < N → N • S = 0 → wp S S N = 1

theorem WeilOk.nsmul {wp : G → G → ℤ → K} (h : WeilOk wp) {N : ℤ} (hN : 0 < N) {S T : G}
    (hS : N • S = 0) (hT : N • T = 0) (k : ℕ) : wp S (k • T) N = wp S T N ^ k := by
  induction k with
  | zero => rw [zero_smul, pow_zero, h.zero_right N S hN hS]
  | succ k ih =>
    rw [succ_nsmul, h.add_right N S _ _ hN hS (by rw [smul_comm, hT, smul_zero]) hT, ih, pow_succ]

theorem WeilOk.multiple {wp : G → G → ℤ → K} (h : WeilOk wp) {N : ℤ} (hN : 0 < N) {S : G}
    (hS : N • S = 0) (j : ℤ) : wp S (j • S) N = 1 := by
  have e : j • S = (j % N).toNat • S := by
    rw [← natCast_zsmul, Int.toNat_of_nonneg (Int.emod_nonneg _ (by omega))]
    conv_lhs => rw [← Int.emod_add_mul_ediv j N]
    rw [add_smul, mul_comm, mul_smul, hS, smul_zero, add_zero]
  rw [e, h.nsmul hN hS hS, h.self N S hN hS, one_pow]

theorem gfOrderLoop_spec (z : K) (o : ℕ) (ho : orderOf z = o) (ho0 : 0 < o) (f : ℕ) (k : ℕ)
    (hk : 0 < k) (hko : k ≤ o) (hf : o ≤ f + k) :
    gfOrderLoop z f (z ^ k) k = some (o : ℤ) := by
  have key : z ^ k = 1 → k = o := fun h => by
    have h1 := orderOf_dvd_of_pow_eq_one h
    rw [ho] at h1
    exact le_antisymm hko (Nat.le_of_dvd hk h1)
  induction f generalizing k with
  | zero =>
    have : k = o := by omega
    subst this
    rw [gfOrderLoop, if_pos (by rw [← ho, pow_orderOf_eq_one])]
  | succ f ih =>
    rw [gfOrderLoop]
    by_cases h1 : z ^ k = 1
    · rw [if_pos h1, key h1]
    · rw [if_neg h1, ← pow_succ]
      have hne : k ≠ o := fun h => h1 (by rw [h, ← ho, pow_orderOf_eq_one])
      have := ih (k + 1) (by omega) (by omega) (by omega) (fun h => by
        have h1 := orderOf_dvd_of_pow_eq_one h
        rw [ho] at h1
        exact le_antisymm (by omega) (Nat.le_of_dvd (by omega) h1))
      push_cast at this
      exact this

/-- `order(z)` is the order of a root of unity -/
theorem gfOrder_spec (z : K) (fuel : ℕ) (ho0 : 0 < orderOf z) (hf : orderOf z ≤ fuel + 1) :
    gfOrder fuel z = some (orderOf z : ℤ) := by
  have := gfOrderLoop_spec z _ rfl ho0 fuel 1 (by omega) ho0 hf
  rw [pow_one] at this
  exact this

/-- the invariant of the search for a second generator.  The last clause is what is kept of
independence: at each prime whose full power in the target has been reached. -/
structure Inv (s : St G) : Prop where
  o1 : (addOrderOf s.P1 : ℤ) = s.n1
  p1 : 0 < s.n1
  o2 : (addOrderOf s.P2 : ℤ) = s.n2
  p2 : 0 < s.n2
  d2 : s.n2 ∣ s.target
  pt : 0 < s.target
  dt : s.target ∣ s.n1
  card : s.n1 * s.target = Nat.card G
  ind : ∀ p v : ℕ, p.Prime → 0 < v → ((p ^ v : ℕ) : ℤ) ∣ s.target →
    ¬ ((p ^ (v + 1) : ℕ) : ℤ) ∣ s.target → ((p ^ v : ℕ) : ℤ) ∣ s.n2 →
    ∀ k : ℤ, (s.n2 / p) • s.P2 ≠ k • s.P1

/-- `P1`, `P2` have orders `n1`, `n2`, are independent and generate the group, `n2` divides `n1` -/
structure IsBasis (P1 : G) (n1 : ℤ) (P2 : G) (n2 : ℤ) : Prop where
  ord1 : (addOrderOf P1 : ℤ) = n1
  ord2 : (addOrderOf P2 : ℤ) = n2
  dvd : n2 ∣ n1
  indep : ∀ a b : ℤ, a • P1 + b • P2 = 0 → n1 ∣ a ∧ n2 ∣ b
  gen : ∀ R : G, ∃ a b : ℤ, R = a • P1 + b • P2
  card : n1 * n2 = Nat.card G

theorem zsmul_eq_zero_iff {P : G} {n : ℤ} (hn : (addOrderOf P : ℤ) = n) (k : ℤ) :
    k • P = 0 ↔ n ∣ k := by
  rw [← hn]; exact addOrderOf_dvd_iff_zsmul_eq_zero.symm

/-- independence of `P1` and `P2` when no `(n2/p) P2` is a multiple of `P1` -/
theorem indep_of_primes {P1 P2 : G} {n1 n2 : ℤ} (h1 : (addOrderOf P1 : ℤ) = n1)
    (h2 : (addOrderOf P2 : ℤ) = n2) (hn2 : 0 < n2)
    (h : ∀ p : ℕ, p.Prime → (p : ℤ) ∣ n2 → ∀ k : ℤ, (n2 / p) • P2 ≠ k • P1) (a b : ℤ)
    (hab : a • P1 + b • P2 = 0) : n1 ∣ a ∧ n2 ∣ b := by
  have hb : n2 ∣ b := by
    by_contra hb
    obtain ⟨d, hd⟩ : ∃ d : ℤ, d = Int.gcd b n2 := ⟨_, rfl⟩
    have hd0 : 0 < d := by
      have := Int.gcd_pos_of_ne_zero_right b (b := n2) (by omega)
      omega
    obtain ⟨e, he⟩ : d ∣ n2 := hd ▸ Int.gcd_dvd_right b n2
    have he0 : 0 < e := by nlinarith
    have he1 : e ≠ 1 := by
      intro h1
      rw [h1, mul_one] at he
      exact hb (he ▸ hd ▸ Int.gcd_dvd_left b n2)
    have hdP : d • P2 = (-(Int.gcdA b n2 * a)) • P1 := by
      have e1 : d = b * Int.gcdA b n2 + n2 * Int.gcdB b n2 := by rw [hd]; exact Int.gcd_eq_gcd_ab b n2
      have e2 : b • P2 = -(a • P1) := by rw [eq_neg_iff_add_eq_zero, add_comm]; exact hab
      have e3 : n2 • P2 = 0 := (zsmul_eq_zero_iff h2 n2).2 dvd_rfl
      rw [e1, add_smul, mul_comm b, mul_comm n2, mul_smul, mul_smul, e2, e3, smul_zero, add_zero,
        smul_neg, smul_smul, neg_smul]
    obtain ⟨p, hp, hpe⟩ := Nat.exists_prime_and_dvd (n := e.natAbs) (by omega)
    obtain ⟨f, hf⟩ : (p : ℤ) ∣ e := Int.natCast_dvd.2 hpe
    refine h p hp ⟨d * f, by rw [he, hf]; ring⟩ (f * (-(Int.gcdA b n2 * a))) ?_
    have e4 : n2 / p = f * d := by
      rw [he, hf, show d * ((p : ℤ) * f) = p * (f * d) by ring]
      exact Int.mul_ediv_cancel_left _ (by exact_mod_cast hp.ne_zero)
    rw [e4, mul_smul, hdP, smul_smul]
  refine ⟨?_, hb⟩
  rw [(zsmul_eq_zero_iff h2 b).2 hb, add_zero] at hab
  exact (zsmul_eq_zero_iff h1 a).1 hab

/-- independent points whose orders multiply to the order of the group generate it -/
theorem gen_of_indep [Finite G] {P1 P2 : G} {n1 n2 : ℤ} (hn1 : 0 < n1) (hn2 : 0 < n2)
    (hind : ∀ a b : ℤ, a • P1 + b • P2 = 0 → n1 ∣ a ∧ n2 ∣ b)
    (hcard : n1 * n2 = Nat.card G) (R : G) : ∃ a b : ℤ, R = a • P1 + b • P2 := by
  obtain ⟨m1, rfl⟩ : ∃ m : ℕ, n1 = m := ⟨n1.toNat, by omega⟩
  obtain ⟨m2, rfl⟩ : ∃ m : ℕ, n2 = m := ⟨n2.toNat, by omega⟩
  have : Fintype G := Fintype.ofFinite G
  let f : Fin m1 × Fin m2 → G := fun x => (x.1.val : ℤ) • P1 + (x.2.val : ℤ) • P2
  have hinj : Function.Injective f := by
    rintro ⟨a, b⟩ ⟨c, d⟩ hx
    have h1 : ((a.val : ℤ) - c.val) • P1 + ((b.val : ℤ) - d.val) • P2 = 0 := by
      have hx' : (a.val : ℤ) • P1 + (b.val : ℤ) • P2 = (c.val : ℤ) • P1 + (d.val : ℤ) • P2 := hx
      rw [sub_smul, sub_smul, sub_add_sub_comm, hx', sub_self]
    obtain ⟨h2, h3⟩ := hind _ _ h1
    have h4 := Int.eq_zero_of_abs_lt_dvd h2 (by rw [abs_lt]; constructor <;> omega)
    have h5 := Int.eq_zero_of_abs_lt_dvd h3 (by rw [abs_lt]; constructor <;> omega)
    exact Prod.ext (Fin.ext (by simp only []; omega)) (Fin.ext (by simp only []; omega))
  have hbij : Function.Bijective f := by
    rw [Fintype.bijective_iff_injective_and_card]
    refine ⟨hinj, ?_⟩
    rw [Nat.card_eq_fintype_card] at hcard
    rw [Fintype.card_prod, Fintype.card_fin, Fintype.card_fin]
    exact_mod_cast hcard
  obtain ⟨⟨a, b⟩, h⟩ := hbij.2 R
  exact ⟨_, _, h.symm⟩

/-- the exit of the second loop -/
theorem Inv.basis [Finite G] {s : St G} (h : Inv s) (he : s.n2 = s.target) :
    IsBasis s.P1 s.n1 s.P2 s.n2 := by
  have hind := indep_of_primes h.o1 h.o2 h.p2 (fun p hp hd k => by
    have hN : s.n2.natAbs ≠ 0 := by have := h.p2; omega
    have hd' : p ∣ s.n2.natAbs := Int.natCast_dvd.1 hd
    refine h.ind p (s.n2.natAbs.factorization p) hp (hp.factorization_pos_of_dvd hN hd') ?_ ?_ ?_ k
    · rw [← he]; exact Int.natCast_dvd.2 (Nat.ordProj_dvd _ _)
    · rw [← he, Int.natCast_dvd]; exact Nat.pow_succ_factorization_not_dvd hN hp
    · exact Int.natCast_dvd.2 (Nat.ordProj_dvd _ _))
  have hcard : s.n1 * s.n2 = Nat.card G := by rw [he]; exact h.card
  exact ⟨h.o1, h.o2, he ▸ h.dt, hind, gen_of_indep h.p1 h.p2 hind hcard, hcard⟩

/-- a root of unity obtained from `Q` by the Weil pairing: its order divides that of `Q`, and where it
reaches the full power of `p` in the target no multiple of `Q` of order `p` is a multiple of `P1` -/
theorem pairing_indep {wp : G → G → ℤ → K} (hwp : WeilOk wp) {P1 Q : G} {n1 N : ℤ}
    (h1 : (addOrderOf P1 : ℤ) = n1) (hN : 0 < N) (hd : N ∣ n1) (hQ : N • Q = 0) :
    orderOf (wp ((n1 / N) • P1) Q N) ∣ addOrderOf Q ∧
    ∀ p v : ℕ, p.Prime → 0 < v → ((p ^ v : ℕ) : ℤ) ∣ N → ¬ ((p ^ (v + 1) : ℕ) : ℤ) ∣ N →
      p ^ v ∣ orderOf (wp ((n1 / N) • P1) Q N) →
      ∀ k : ℤ, ((addOrderOf Q : ℤ) / p) • Q ≠ k • P1 := by
  obtain ⟨c, hc⟩ := hd
  have e1 : n1 / N = c := by rw [hc, Int.mul_ediv_cancel_left _ (by omega)]
  rw [e1]
  have hS : N • (c • P1) = 0 := by rw [smul_smul, ← hc, zsmul_eq_zero_iff h1]
  have hm : orderOf (wp (c • P1) Q N) ∣ addOrderOf Q := by
    apply orderOf_dvd_of_pow_eq_one
    rw [← hwp.nsmul hN hS hQ, addOrderOf_nsmul_eq_zero, hwp.zero_right N _ hN hS]
  refine ⟨hm, fun p v hp hv hpN hpN' hpm k hk => ?_⟩
  have hoN : (addOrderOf Q : ℤ) ∣ N := addOrderOf_dvd_iff_zsmul_eq_zero.2 hQ
  have hpo : p ∣ addOrderOf Q := ((dvd_pow_self p (by omega)).trans hpm).trans hm
  obtain ⟨o, ho⟩ := hpo
  have e2 : (addOrderOf Q : ℤ) / p = (o : ℤ) := by
    rw [ho]; push_cast
    exact Int.mul_ediv_cancel_left _ (by exact_mod_cast hp.ne_zero)
  rw [e2] at hk
  have hkN : n1 ∣ N * k := by
    rw [← zsmul_eq_zero_iff h1, mul_smul, ← hk, smul_comm, hQ, smul_zero]
  have hck : c ∣ k := by
    rw [hc] at hkN
    exact Int.dvd_of_mul_dvd_mul_left (by omega) hkN
  obtain ⟨j, rfl⟩ := hck
  have hz : wp (c • P1) Q N ^ o = 1 := by
    rw [← hwp.nsmul hN hS hQ, ← natCast_zsmul, hk, mul_comm, mul_smul, hwp.multiple hN hS]
  have h2 := hpm.trans (orderOf_dvd_of_pow_eq_one hz)
  apply hpN'
  refine dvd_trans ?_ hoN
  rw [ho, pow_succ, mul_comm]
  exact_mod_cast Nat.mul_dvd_mul_left p h2

theorem merge2Gain_inv {wp : G → G → ℤ → K} (hwp : WeilOk wp) {pdivs : ℤ → List ℤ}
    (hpd : Curve.PdivsOk pdivs) {s : St G} (h : Inv s) {Q : G} (hQ : s.target • Q = 0) {m : ℤ}
    (hm : m = orderOf (wp ((s.n1 / s.target) • s.P1) Q s.target)) {fuel : ℕ}
    (hf : s.target ≤ fuel) {s' : St G} (hs : merge2Gain pdivs fuel s Q m = some s') : Inv s' := by
  obtain ⟨hmo, hind⟩ := pairing_indep hwp h.o1 h.pt h.dt hQ
  obtain ⟨mm, hmm⟩ : ∃ mm, mm = orderOf (wp ((s.n1 / s.target) • s.P1) Q s.target) := ⟨_, rfl⟩
  rw [← hmm] at hm hmo hind
  have hpt := h.pt
  have hoN : (addOrderOf Q : ℤ) ∣ s.target := addOrderOf_dvd_iff_zsmul_eq_zero.2 hQ
  have ho0 : 0 < (addOrderOf Q : ℤ) := by
    rcases Nat.eq_zero_or_pos (addOrderOf Q) with h0 | h0
    · rw [h0] at hoN
      have := zero_dvd_iff.1 hoN
      omega
    · exact_mod_cast h0
  have hmoz : m ∣ (addOrderOf Q : ℤ) := by rw [hm]; exact_mod_cast hmo
  have hm0 : 0 < m := by
    rw [hm]
    exact_mod_cast Nat.pos_of_dvd_of_pos hmo (by exact_mod_cast ho0)
  rw [merge2Gain, C67_order_mult hpd Q s.target (by omega) hQ fuel (by omega)] at hs
  simp only [] at hs
  have hQ1 : (addOrderOf (((addOrderOf Q : ℤ) / m) • Q) : ℤ) = m := order_quot rfl ho0 hmoz hm0
  -- the independence of the new point
  have hnew : ∀ p v : ℕ, p.Prime → 0 < v → ((p ^ v : ℕ) : ℤ) ∣ s.target →
      ¬ ((p ^ (v + 1) : ℕ) : ℤ) ∣ s.target → ((p ^ v : ℕ) : ℤ) ∣ m →
      ∀ k : ℤ, (m / p) • (((addOrderOf Q : ℤ) / m) • Q) ≠ k • s.P1 := by
    intro p v hp hv a b c k
    have c' : p ^ v ∣ mm := by rw [hm] at c; exact_mod_cast c
    have hpm : (p : ℤ) ∣ m := by
      refine dvd_trans ?_ c
      exact_mod_cast dvd_pow_self p (by omega)
    have e : m / p * ((addOrderOf Q : ℤ) / m) = (addOrderOf Q : ℤ) / p := by
      obtain ⟨x, hx⟩ := hpm
      obtain ⟨y, hy⟩ := hmoz
      have hp0 : (p : ℤ) ≠ 0 := by exact_mod_cast hp.ne_zero
      rw [hy, Int.mul_ediv_cancel_left _ (by omega), hx, Int.mul_ediv_cancel_left _ hp0, mul_assoc,
        Int.mul_ediv_cancel_left _ hp0]
    rw [smul_smul, e]
    exact hind p v hp hv a b c' k
  have hp2 := h.p2
  by_cases c1 : ((Int.lcm s.n2 m : ℕ) : ℤ) = s.n2
  · rw [if_pos c1] at hs
    cases hs
    exact h
  rw [if_neg c1] at hs
  by_cases c2 : ((Int.lcm s.n2 m : ℕ) : ℤ) = m
  · rw [if_pos c2] at hs
    cases hs
    exact ⟨h.o1, h.p1, hQ1, hm0, hmoz.trans hoN, h.pt, h.dt, h.card, hnew⟩
  rw [if_neg c2] at hs
  obtain ⟨t1, t2, t3, t4, t5, t6, t7⟩ := C68_tidy_lcm s.n2 m h.p2 hm0
  obtain ⟨l, hll⟩ : ∃ l, l = (tidyLcm s.n2 m).1 := ⟨_, rfl⟩
  obtain ⟨n2d, hn2d⟩ : ∃ x, x = (tidyLcm s.n2 m).2.1 := ⟨_, rfl⟩
  obtain ⟨md, hmd⟩ : ∃ x, x = (tidyLcm s.n2 m).2.2 := ⟨_, rfl⟩
  rw [← hll, ← hn2d, ← hmd] at hs
  rw [← hll] at t1
  rw [← hn2d] at t2 t4 t6 t7
  rw [← hmd] at t3 t5 t6 t7
  cases hs
  obtain ⟨A, hA⟩ : ∃ A, A = (s.n2 / n2d) • s.P2 := ⟨_, rfl⟩
  obtain ⟨B, hB⟩ : ∃ B, B = (m / md) • (((addOrderOf Q : ℤ) / m) • Q) := ⟨_, rfl⟩
  have oA : (addOrderOf A : ℤ) = n2d := hA ▸ order_quot h.o2 h.p2 t4 t2
  have oB : (addOrderOf B : ℤ) = md := hB ▸ order_quot hQ1 hm0 t5 t3
  have hl : l = n2d * md := by rw [t1, t7]
  have hl0 : 0 < l := by rw [hl]; positivity
  have hcop : Nat.Coprime (addOrderOf A) (addOrderOf B) := by
    rw [← Nat.isCoprime_iff_coprime, oA, oB]; exact t6
  have oAB : (addOrderOf (A + B) : ℤ) = l := by
    rw [(AddCommute.all A B).addOrderOf_add_eq_mul_addOrderOf_of_coprime hcop, hl]
    push_cast
    rw [oA, oB]
  have zA : n2d • A = 0 := (zsmul_eq_zero_iff oA _).2 dvd_rfl
  have zB : md • B = 0 := (zsmul_eq_zero_iff oB _).2 dvd_rfl
  refine ⟨h.o1, h.p1, ?_, hl0, ?_, h.pt, h.dt, h.card, ?_⟩
  · simp only []
    rw [← hA, ← hB]
    exact oAB
  · simp only []
    rw [t1]
    exact Int.coe_lcm_dvd h.d2 (hmoz.trans hoN)
  · simp only []
    rw [← hA, ← hB]
    intro p v hp hv a b c k hk
    have hp0 : (p : ℤ) ≠ 0 := by exact_mod_cast hp.ne_zero
    have hpp : Prime (p : ℤ) := Nat.prime_iff_prime_int.1 hp
    -- the power of `p` divides one of the two coprime factors
    have hcase : ((p ^ v : ℕ) : ℤ) ∣ n2d ∨ ((p ^ v : ℕ) : ℤ) ∣ md := by
      rw [hl] at c
      by_cases hpd : (p : ℤ) ∣ n2d
      · left
        have : IsCoprime ((p ^ v : ℕ) : ℤ) md := by
          push_cast
          refine IsCoprime.pow_left ?_
          exact t6.of_isCoprime_of_dvd_left hpd
        exact this.dvd_of_dvd_mul_right c
      · right
        have : IsCoprime ((p ^ v : ℕ) : ℤ) n2d := by
          push_cast
          exact IsCoprime.pow_left ((Prime.coprime_iff_not_dvd hpp).2 hpd)
        exact this.dvd_of_dvd_mul_left c
    have hpv : (p : ℤ) ∣ ((p ^ v : ℕ) : ℤ) := by exact_mod_cast dvd_pow_self p (by omega)
    rcases hcase with hc | hc
    · obtain ⟨x, hx⟩ := hpv.trans hc
      have e1 : l / p = x * md := by
        rw [hl, hx, mul_assoc, Int.mul_ediv_cancel_left _ hp0]
      have e2 : (x * md) • (A + B) = md • (x • A) := by
        rw [smul_add, mul_smul x md B, zB, smul_zero, add_zero, mul_comm, mul_smul]
      rw [e1, e2] at hk
      -- `md` is prime to `p`, which kills `x A`
      have hpx : (p : ℤ) • (x • A) = 0 := by rw [smul_smul, ← hx, zA]
      obtain ⟨u, w, huw⟩ : IsCoprime md (p : ℤ) := (t6.of_isCoprime_of_dvd_left (hpv.trans hc)).symm
      have e3 : x • A = (u * k) • s.P1 := by
        have : (u * md + w * p) • (x • A) = x • A := by rw [huw, one_smul]
        rw [← this, add_smul, mul_smul, mul_smul, hk, hpx, smul_zero, add_zero, smul_smul]
      refine h.ind p v hp hv a b (hc.trans t4) (u * k) ?_
      rw [← e3, hA, smul_smul]
      congr 1
      obtain ⟨y, hy⟩ := t4
      rw [hy, Int.mul_ediv_cancel_left _ (by omega), hx, mul_assoc, Int.mul_ediv_cancel_left _ hp0]
    · obtain ⟨x, hx⟩ := hpv.trans hc
      have e1 : l / p = x * n2d := by
        rw [hl, hx, mul_left_comm, Int.mul_ediv_cancel_left _ hp0, mul_comm]
      have e2 : (x * n2d) • (A + B) = n2d • (x • B) := by
        rw [smul_add, mul_smul x n2d A, zA, smul_zero, zero_add, mul_comm, mul_smul]
      rw [e1, e2] at hk
      have hpx : (p : ℤ) • (x • B) = 0 := by rw [smul_smul, ← hx, zB]
      obtain ⟨u, w, huw⟩ : IsCoprime n2d (p : ℤ) := t6.of_isCoprime_of_dvd_right (hpv.trans hc)
      have e3 : x • B = (u * k) • s.P1 := by
        have : (u * n2d + w * p) • (x • B) = x • B := by rw [huw, one_smul]
        rw [← this, add_smul, mul_smul, mul_smul, hk, hpx, smul_zero, add_zero, smul_smul]
      refine hnew p v hp hv a b (hc.trans t5) (u * k) ?_
      rw [← e3, hB, smul_smul x]
      congr 1
      obtain ⟨y, hy⟩ := t5
      rw [hy, Int.mul_ediv_cancel_left _ (by omega), hx, mul_assoc, Int.mul_ediv_cancel_left _ hp0]

theorem not_pow_dvd_one {p v : ℕ} (hp : p.Prime) (hv : 0 < v) : ¬ ((p ^ v : ℕ) : ℤ) ∣ 1 := by
  intro h
  have h1 : p ^ v ∣ 1 := by exact_mod_cast h
  exact hp.one_lt.ne' (Nat.dvd_one.1 ((dvd_pow_self p (by omega)).trans h1))

/-- the invariant when nothing is known of the second generator -/
theorem inv_trivial {P1 P2 : G} {n1 N : ℤ} (h1 : (addOrderOf P1 : ℤ) = n1) (hn1 : 0 < n1)
    (h2 : addOrderOf P2 = 1) (hN : 0 < N) (hd : N ∣ n1) (hc : n1 * N = Nat.card G) :
    Inv ⟨P1, n1, P2, 1, N⟩ :=
  ⟨h1, hn1, by simp only []; rw [h2]; rfl, one_pos, one_dvd _, hN, hd, hc,
    fun _ _ hp hv _ _ h => absurd h (not_pow_dvd_one hp hv)⟩

/-- **C69 (merge_points_2).** The invariant is preserved. -/
theorem merge2_inv [Finite G] {key : G → κ} (hkey : KeyOk key) {wp : G → G → ℤ → K}
    (hwp : WeilOk wp) {pdivs : ℤ → List ℤ} (hpd : Curve.PdivsOk pdivs) {ord : G → ℤ}
    (hord : ∀ Q, ord Q = addOrderOf Q) {s : St G} (h : Inv s) {fuel : ℕ}
    (hf : Nat.card G ≤ fuel) (Q : G) :
    ∃ s', merge2 key pdivs fuel ord wp s Q = some s' ∧ Inv s' := by
  have hp1 := h.p1
  have hp2 := h.p2
  have hpt := h.pt
  have hQpos : 0 < addOrderOf Q := addOrderOf_pos Q
  rw [merge2]
  simp only []
  by_cases c1 : s.n2 • Q = 0
  · rw [if_pos c1]
    exact ⟨s, rfl, h⟩
  rw [if_neg c1]
  have e1 : (s.n1 / s.n2) • (s.n2 • Q) = s.n1 • Q := by
    rw [smul_smul, Int.ediv_mul_cancel (h.d2.trans h.dt)]
  rw [e1]
  by_cases c2 : s.n1 • Q = 0
  · rw [if_neg (not_not.2 c2)]
    obtain ⟨c, hc⟩ := h.dt
    have hc0 : 0 < c := by nlinarith
    have e2 : s.n1 / s.target = c := by rw [hc, Int.mul_ediv_cancel_left _ (by omega)]
    rw [e2]
    by_cases c3 : bg key (s.target • s.P1) (s.target • Q) 0 c = -1
    · rw [if_pos c3]
      exact ⟨s, rfl, h⟩
    rw [if_neg c3]
    obtain ⟨a, ha⟩ : ∃ a, a = bg key (s.target • s.P1) (s.target • Q) 0 c := ⟨_, rfl⟩
    have hsol : a • (s.target • s.P1) = s.target • Q := by
      rcases C66_bg hkey (s.target • s.P1) (s.target • Q) 0 c (le_refl _) (by omega) (Or.inl rfl)
        with ⟨_, _, h2, _⟩ | ⟨h2, _⟩
      · rw [ha]; exact h2
      · exact absurd h2 c3
    rw [← ha]
    have hkill : s.target • (Q - a • s.P1) = 0 := by
      rw [smul_sub, smul_comm, hsol, sub_self]
    by_cases c4 : Q - a • s.P1 = 0
    · rw [if_pos c4]
      exact ⟨s, rfl, h⟩
    rw [if_neg c4]
    have hcle : s.target ≤ Nat.card G := by
      have := h.card
      nlinarith
    have hzo := (pairing_indep hwp h.o1 h.pt h.dt hkill).1
    rw [e2] at hzo
    have hoN : (addOrderOf (Q - a • s.P1) : ℤ) ∣ s.target :=
      addOrderOf_dvd_iff_zsmul_eq_zero.2 hkill
    have hole := Int.le_of_dvd hpt hoN
    have hopos : 0 < addOrderOf (Q - a • s.P1) := addOrderOf_pos _
    have hzpos := Nat.pos_of_dvd_of_pos hzo hopos
    have hzle := Nat.le_of_dvd hopos hzo
    rw [gfOrder_spec _ fuel hzpos (by omega)]
    simp only []
    obtain ⟨s', hs'⟩ : ∃ s', merge2Gain pdivs fuel s (Q - a • s.P1)
        (orderOf (wp (c • s.P1) (Q - a • s.P1) s.target)) = some s' := by
      rw [merge2Gain, C67_order_mult hpd _ s.target (by omega) hkill fuel (by omega)]
      simp only []
      split_ifs <;> exact ⟨_, rfl⟩
    exact ⟨s', hs', merge2Gain_inv hwp hpd h hkill (by rw [e2]) (by omega) hs'⟩
  · rw [if_pos c2]
    obtain ⟨m1, m2, -⟩ := C68_merge1 ord s.P1 Q s.n1 h.o1 h.p1 (hord Q) hQpos
    obtain ⟨R, hR⟩ : ∃ R, R = merge1 ord s.P1 s.n1 Q := ⟨_, rfl⟩
    rw [← hR] at m1 m2 ⊢
    have hR0 : 0 < R.2 := by
      have := addOrderOf_pos R.1
      omega
    have hRc : R.2 ∣ Nat.card G := by
      rw [← m1]
      exact_mod_cast addOrderOf_dvd_natCard R.1
    obtain ⟨N', hN'⟩ := hRc
    have e3 : s.target * s.n1 / R.2 = N' := by
      rw [mul_comm, h.card, hN', Int.mul_ediv_cancel_left _ (by omega)]
    rw [e3]
    have hcard0 : 0 < (Nat.card G : ℤ) := by exact_mod_cast Nat.card_pos
    have hN'0 : 0 < N' := by rw [hN'] at hcard0; nlinarith
    have hdv : N' ∣ R.2 := by
      obtain ⟨u, hu⟩ : s.n1 ∣ R.2 := by rw [m2]; exact Int.dvd_lcm_left _ _
      have : N' * u = s.target := by
        have e4 : s.n1 * (N' * u) = s.n1 * s.target := by rw [h.card, hN', hu]; ring
        exact mul_left_cancel₀ (by omega) e4
      exact ((Dvd.intro u this).trans h.dt).trans (Dvd.intro u hu.symm)
    split_ifs with c5
    · exact ⟨_, rfl, inv_trivial m1 hR0 addOrderOf_zero hN'0 hdv hN'.symm⟩
    · have e5 : s.n2 = 1 := by omega
      refine ⟨_, rfl, ?_⟩
      rw [e5]
      refine inv_trivial m1 hR0 ?_ hN'0 hdv hN'.symm
      have := h.o2
      omega

theorem isoLoop2_inv [Finite G] {key : G → κ} (hkey : KeyOk key) {wp : G → G → ℤ → K}
    (hwp : WeilOk wp) {pdivs : ℤ → List ℤ} (hpd : Curve.PdivsOk pdivs) {ord : G → ℤ}
    (hord : ∀ Q, ord Q = addOrderOf Q) {fuel : ℕ} (hf : Nat.card G ≤ fuel) (rnd : ℕ → G) (f : ℕ) :
    ∀ (n : ℕ) (s : St G), Inv s → ∀ s', isoLoop2 key pdivs fuel ord wp rnd f n s = some s' →
      Inv s' ∧ s'.n2 = s'.target := by
  induction f with
  | zero =>
    intro n s h s' hs
    rw [isoLoop2] at hs
    split_ifs at hs with c
    cases hs
    exact ⟨h, c⟩
  | succ f ih =>
    intro n s h s' hs
    rw [isoLoop2] at hs
    split_ifs at hs with c
    · cases hs
      exact ⟨h, c⟩
    · obtain ⟨s1, e, h1⟩ := merge2_inv hkey hwp hpd hord h hf (rnd n)
      rw [e] at hs
      exact ih _ s1 h1 s' hs

/-- **C69 (n2list).** The list holds exactly the `n2` with `lower ≤ n1 n2 ≤ upper` that divide `n1` and
`q - 1`, each once. -/
theorem C69_n2list (n1 lower upper q : ℤ) (hn : 0 < n1) :
    (∀ x, x ∈ n2list n1 lower upper q ↔
      lower ≤ n1 * x ∧ n1 * x ≤ upper ∧ x ∣ n1 ∧ x ∣ q - 1) ∧
    (n2list n1 lower upper q).Nodup := by
  unfold n2list
  simp only []
  obtain ⟨lo, hlo⟩ : ∃ lo, lo = if lower / n1 * n1 < lower then lower / n1 + 1 else lower / n1 :=
    ⟨_, rfl⟩
  rw [← hlo]
  have hlo' : ∀ x, lo ≤ x ↔ lower ≤ n1 * x := by
    intro x
    have h1 := Int.emod_add_mul_ediv lower n1
    have h2 := Int.emod_nonneg lower (show n1 ≠ 0 by omega)
    have h3 := Int.emod_lt_of_pos lower hn
    rw [hlo]
    split_ifs with c
    · constructor
      · intro h; nlinarith
      · intro h
        by_contra hc
        have : x ≤ lower / n1 := by omega
        nlinarith
    · constructor
      · intro h; nlinarith
      · intro h
        by_contra hc
        have : x + 1 ≤ lower / n1 := by omega
        nlinarith
  have hhi : ∀ x, x ≤ upper / n1 ↔ n1 * x ≤ upper := fun x => by
    rw [Int.le_ediv_iff_mul_le hn, mul_comm]
  constructor
  · intro x
    rw [List.mem_filter, List.mem_map, decide_eq_true_eq]
    constructor
    · rintro ⟨⟨i, hi, rfl⟩, hd⟩
      rw [List.mem_range] at hi
      have h4 := Int.dvd_of_emod_eq_zero hd
      exact ⟨(hlo' _).1 (by omega), (hhi _).1 (by omega), h4.trans (Int.gcd_dvd_left _ _),
        h4.trans (Int.gcd_dvd_right _ _)⟩
    · rintro ⟨a, b, c, d⟩
      have a' := (hlo' x).2 a
      have b' := (hhi x).2 b
      refine ⟨⟨(x - lo).toNat, List.mem_range.2 (by omega), by omega⟩, ?_⟩
      exact Int.emod_eq_zero_of_dvd (Int.dvd_coe_gcd c d)
  · refine List.Nodup.filter _ (List.Nodup.map (fun i j h => ?_) List.nodup_range)
    have h' : lo + (i : ℤ) = lo + (j : ℤ) := h
    omega

theorem isoLoop1_spec [Finite G] {ord : G → ℤ} (hord : ∀ Q, ord Q = addOrderOf Q) (rnd : ℕ → G)
    (lower upper q : ℤ) (f : ℕ) : ∀ (n : ℕ) (P : G) (ordP : ℤ), (addOrderOf P : ℤ) = ordP →
    ∀ r, isoLoop1 ord rnd lower upper q f n P ordP = some r →
      (addOrderOf r.2.1 : ℤ) = r.2.2 ∧ (n2list r.2.2 lower upper q).length = 1 ∧
      (r.1 ≤ 10 → upper < 2 * r.2.2) := by
  have key : ∀ (n : ℕ) (P : G) (ordP : ℤ), (addOrderOf P : ℤ) = ordP →
      ¬ ((n ≤ 10 ∧ 2 * ordP ≤ upper) ∨ (n2list ordP lower upper q).length ≠ 1) →
      ((addOrderOf P : ℤ) = ordP ∧ (n2list ordP lower upper q).length = 1 ∧
        (n ≤ 10 → upper < 2 * ordP)) := by
    intro n P ordP h c
    push Not at c
    exact ⟨h, c.2, fun h1 => c.1 h1⟩
  induction f with
  | zero =>
    intro n P ordP h r hr
    rw [isoLoop1] at hr
    split_ifs at hr with c
    cases hr
    exact key n P ordP h c
  | succ f ih =>
    intro n P ordP h r hr
    rw [isoLoop1] at hr
    split_ifs at hr with c
    · refine ih _ _ _ ?_ r hr
      have hpos := addOrderOf_pos P
      exact (C68_merge1 ord P (rnd n) ordP h (by omega) (hord _) (addOrderOf_pos _)).1
    · cases hr
      exact key n P ordP h c

/-- contract of the computation of another point of order 2 -/
def Other2Ok (other2 : G → Option G) : Prop :=
  ∀ T T', T ≠ 0 → T + T = 0 → other2 T = some T' → T' ≠ 0 ∧ T' + T' = 0 ∧ T' ≠ T

theorem isoStart_inv {other2 : G → Option G} (h2 : Other2Ok other2) {P : G} {ordP quot : ℤ}
    (h : (addOrderOf P : ℤ) = ordP) (hP : 0 < ordP) (hq : 0 < quot) (hd : quot ∣ ordP)
    (hc : ordP * quot = Nat.card G) : Inv (isoStart other2 P ordP quot) := by
  rw [isoStart]
  split_ifs with c
  · have hqe : (2 : ℤ) ∣ quot := Int.dvd_of_emod_eq_zero c
    obtain ⟨e, he⟩ := hqe.trans hd
    have e1 : ordP / 2 = e := by omega
    rw [e1]
    have hT0 : e • P ≠ 0 := by
      rw [Ne, zsmul_eq_zero_iff h]
      intro hx
      have := Int.le_of_dvd (by omega) hx
      omega
    have hTT : e • P + e • P = 0 := by
      rw [← add_smul, zsmul_eq_zero_iff h, he]
      exact ⟨1, by ring⟩
    cases hT : other2 (e • P) with
    | none => exact inv_trivial h hP addOrderOf_zero hq hd hc
    | some T' =>
      obtain ⟨t1, t2, t3⟩ := h2 _ _ hT0 hTT hT
      have hoT : addOrderOf T' = 2 := by
        have hdv : addOrderOf T' ∣ 2 := addOrderOf_dvd_of_nsmul_eq_zero (by rw [two_nsmul, t2])
        rcases (Nat.dvd_prime Nat.prime_two).1 hdv with h1 | h1
        · exact absurd (AddMonoid.addOrderOf_eq_one_iff.1 h1) t1
        · exact h1
      refine ⟨h, hP, by simp only []; rw [hoT]; rfl, by simp only []; omega, hqe, hq, hd, hc, ?_⟩
      simp only []
      intro p v hp hv _ _ hpv k hk
      have hp2 : p = 2 := by
        have h3 : p ^ v ∣ 2 := by exact_mod_cast hpv
        exact (Nat.prime_dvd_prime_iff_eq hp Nat.prime_two).1 ((dvd_pow_self p (by omega)).trans h3)
      subst hp2
      have hk' : T' = k • P := by
        have : (2 : ℤ) / ((2 : ℕ) : ℤ) = 1 := by decide
        rw [this, one_smul] at hk
        exact hk
      have h4 : ordP ∣ 2 * k := by
        rw [← zsmul_eq_zero_iff h, mul_smul, ← hk', two_smul, t2]
      rw [he] at h4
      obtain ⟨j, hj⟩ := Int.dvd_of_mul_dvd_mul_left (by omega : (2 : ℤ) ≠ 0) h4
      rcases Int.even_or_odd' j with ⟨i, hi | hi⟩
      · apply t1
        rw [hk', hj, hi, show e * (2 * i) = i * (e + e) by ring, mul_smul, add_smul, hTT, smul_zero]
      · apply t3
        rw [hk', hj, hi, show e * (2 * i + 1) = i * (e + e) + e by ring, add_smul, mul_smul, add_smul,
          hTT, smul_zero, zero_add]
  · exact inv_trivial h hP addOrderOf_zero hq hd hc

theorem isBasis_cyclic [Finite G] {P : G} {n : ℤ} (h : (addOrderOf P : ℤ) = n)
    (hc : n = Nat.card G) : IsBasis P n 0 1 := by
  have hn : 0 < n := by
    have := addOrderOf_pos P
    omega
  have hind : ∀ a b : ℤ, a • P + b • (0 : G) = 0 → n ∣ a ∧ (1 : ℤ) ∣ b := fun a b hab => by
    rw [smul_zero, add_zero] at hab
    exact ⟨(zsmul_eq_zero_iff h a).1 hab, one_dvd _⟩
  exact ⟨h, by rw [addOrderOf_zero]; rfl, one_dvd _, hind,
    gen_of_indep hn one_pos hind (by rw [mul_one, hc]), by rw [mul_one, hc]⟩

/-- the second half: if `quot` is right then the result is a basis -/
theorem iso_core [Finite G] {key : G → κ} (hkey : KeyOk key) {wp : G → G → ℤ → K}
    (hwp : WeilOk wp) {pdivs : ℤ → List ℤ} (hpd : Curve.PdivsOk pdivs) {ord : G → ℤ}
    (hord : ∀ Q, ord Q = addOrderOf Q) {other2 : G → Option G} (h2 : Other2Ok other2)
    (rnd : ℕ → G) (q leg : ℤ) {fuel : ℕ} (hf : Nat.card G ≤ fuel)
    (hfirst : isoFirst key pdivs fuel q leg (rnd 0) = some (addOrderOf (rnd 0) : ℤ))
    (hlow : 0 < (isoBounds q leg).1)
    (hquot : ∀ n P ordP, isoLoop1 ord rnd (isoBounds q leg).1 (isoBounds q leg).2 q fuel 1 (rnd 0)
      (addOrderOf (rnd 0)) = some (n, P, ordP) →
      ∀ x, n2list ordP (isoBounds q leg).1 (isoBounds q leg).2 q = [x] → ordP * x = Nat.card G)
    {P1 P2 : G} {n1 n2 : ℤ}
    (hres : isoType key pdivs fuel ord wp other2 rnd q leg = some (P1, n1, P2, n2)) :
    IsBasis P1 n1 P2 n2 := by
  rw [isoType, hfirst] at hres
  simp only [] at hres
  cases hl : isoLoop1 ord rnd (isoBounds q leg).1 (isoBounds q leg).2 q fuel 1 (rnd 0)
      (addOrderOf (rnd 0)) with
  | none => rw [hl] at hres; cases hres
  | some r =>
    obtain ⟨n, P, ordP⟩ := r
    rw [hl] at hres
    simp only [] at hres
    obtain ⟨s1, s2, s3⟩ := isoLoop1_spec hord rnd _ _ q fuel 1 (rnd 0) _ rfl _ hl
    simp only [] at s1 s2 s3
    obtain ⟨x, hx⟩ := List.length_eq_one_iff.1 s2
    have hcard := hquot n P ordP hl x hx
    have hhd : (n2list ordP (isoBounds q leg).1 (isoBounds q leg).2 q).headD 0 = x := by rw [hx]; rfl
    rw [hhd] at hres
    have hP : 0 < ordP := by
      have := addOrderOf_pos P
      omega
    have hxm := ((C69_n2list ordP _ _ q hP).1 x).1 (by rw [hx]; exact List.mem_singleton.2 rfl)
    have hx0 : 0 < x := by nlinarith [hxm.1]
    by_cases c : x = 1
    · rw [if_pos c] at hres
      cases hres
      exact isBasis_cyclic s1 (by rw [← hcard, c, mul_one])
    · rw [if_neg c] at hres
      cases hl2 : isoLoop2 key pdivs fuel ord wp rnd fuel n (isoStart other2 P ordP x) with
      | none => rw [hl2] at hres; cases hres
      | some s =>
        rw [hl2] at hres
        cases hres
        obtain ⟨i1, i2⟩ := isoLoop2_inv hkey hwp hpd hord hf rnd fuel n _
          (isoStart_inv h2 s1 hP hx0 hxm.2.2.1 hcard) s hl2
        exact i1.basis i2

/-- **C69 (counted fields).** For the fields where the points are counted first, whatever random
points are drawn: if the function returns, `P1` and `P2` are independent points of orders `n1` and
`n2`, `n2` divides `n1` and they generate the group. -/
theorem C69_iso_type_counted [Finite G] {key : G → κ} (hkey : KeyOk key) {wp : G → G → ℤ → K}
    (hwp : WeilOk wp) {pdivs : ℤ → List ℤ} (hpd : Curve.PdivsOk pdivs) {ord : G → ℤ}
    (hord : ∀ Q, ord Q = addOrderOf Q) {other2 : G → Option G} (h2 : Other2Ok other2)
    (rnd : ℕ → G) (q : ℤ) (hq : countDirectly q = true) {fuel : ℕ} (hf : Nat.card G ≤ fuel)
    {P1 P2 : G} {n1 n2 : ℤ}
    (hres : isoType key pdivs fuel ord wp other2 rnd q (Nat.card G) = some (P1, n1, P2, n2)) :
    IsBasis P1 n1 P2 n2 := by
  have hb : isoBounds q (Nat.card G) = ((Nat.card G : ℤ), (Nat.card G : ℤ)) := if_pos hq
  have hc0 : 0 < (Nat.card G : ℤ) := by exact_mod_cast Nat.card_pos
  refine iso_core hkey hwp hpd hord h2 rnd q (Nat.card G) hf ?_ (by rw [hb]; exact hc0) ?_ hres
  · rw [isoFirst, if_pos hq, hb]
    exact C67_order_mult hpd _ _ (by simp only []; omega)
      (by simp only []; rw [natCast_zsmul]; exact card_nsmul_eq_zero') fuel (by simp only []; omega)
  · intro n P ordP hl x hx
    rw [hb] at hl hx
    obtain ⟨s1, -, -⟩ := isoLoop1_spec hord rnd _ _ q fuel 1 (rnd 0) _ rfl _ hl
    have hP : 0 < ordP := by
      have := addOrderOf_pos P
      simp only [] at s1
      omega
    have := ((C69_n2list ordP _ _ q hP).1 x).1 (by rw [hx]; exact List.mem_singleton.2 rfl)
    exact le_antisymm this.2.1 this.1

/-- **C69 (other fields).** For the other fields the same holds if the group order `C` satisfies Hasse's
bound, the quotient of `C` by the exponent of the group divides the exponent and `q - 1` (as it does for
elliptic curves, by the Weil pairing), and the point found by the first loop has the maximal order.
Missing: the last hypothesis, without which the statement fails (`C69_iso_type_wrong`). -/
theorem C69_iso_type_partial [Finite G] {key : G → κ} (hkey : KeyOk key) {wp : G → G → ℤ → K}
    (hwp : WeilOk wp) {pdivs : ℤ → List ℤ} (hpd : Curve.PdivsOk pdivs) {ord : G → ℤ}
    (hord : ∀ Q, ord Q = addOrderOf Q) {other2 : G → Option G} (h2 : Other2Ok other2)
    (rnd : ℕ → G) (q leg : ℤ) (hq2 : 2 ≤ q) (hq : countDirectly q = false)
    (hasse : ((Nat.card G : ℤ) - (q + 1)) ^ 2 ≤ 4 * q)
    (hstr : ∀ n x : ℤ, (n = AddMonoid.exponent G) → n * x = Nat.card G → x ∣ n ∧ x ∣ q - 1)
    {fuel : ℕ} (hf : (hasseBounds q).2 ≤ fuel)
    (hmax : ∀ n P ordP, isoLoop1 ord rnd (hasseBounds q).1 (hasseBounds q).2 q fuel 1 (rnd 0)
      (addOrderOf (rnd 0)) = some (n, P, ordP) → ∀ R : G, ordP • R = 0)
    {P1 P2 : G} {n1 n2 : ℤ}
    (hres : isoType key pdivs fuel ord wp other2 rnd q leg = some (P1, n1, P2, n2)) :
    IsBasis P1 n1 P2 n2 := by
  have hb : isoBounds q leg = hasseBounds q := if_neg (by rw [hq]; decide)
  obtain ⟨b1, b2⟩ := C67_hasse_bounds q (Nat.card G : ℤ) hq2
  obtain ⟨b3, b4⟩ := b2.2 hasse
  refine iso_core hkey hwp hpd hord h2 rnd q leg (by omega) ?_ (by rw [hb]; exact b1) ?_ hres
  · rw [isoFirst, if_neg (by rw [hq]; decide), hb]
    exact C67_order_bounds hkey hpd _ _ _ b1 ⟨_, b3, b4, by
      rw [natCast_zsmul]; exact card_nsmul_eq_zero'⟩ fuel hf
  · intro n P ordP hl x hx
    rw [hb] at hl hx
    obtain ⟨s1, -, -⟩ := isoLoop1_spec hord rnd _ _ q fuel 1 (rnd 0) _ rfl _ hl
    simp only [] at s1
    have hP : 0 < ordP := by
      have := addOrderOf_pos P
      omega
    have hm := hmax n P ordP hl
    have hexp : ordP = AddMonoid.exponent G := by
      rw [← s1]
      have h3 : addOrderOf P ∣ AddMonoid.exponent G := AddMonoid.addOrder_dvd_exponent P
      have h4 : AddMonoid.exponent G ∣ addOrderOf P := by
        refine AddMonoid.exponent_dvd_of_forall_nsmul_eq_zero (fun R => ?_)
        rw [← natCast_zsmul, s1]
        exact hm R
      exact_mod_cast Nat.dvd_antisymm h3 h4
    obtain ⟨y, hy⟩ : ordP ∣ Nat.card G := by
      rw [← s1]
      exact_mod_cast addOrderOf_dvd_natCard P
    obtain ⟨h5, h6⟩ := hstr ordP y hexp hy.symm
    have hyl : y ∈ n2list ordP (hasseBounds q).1 (hasseBounds q).2 q :=
      ((C69_n2list ordP _ _ q hP).1 y).2 ⟨by rw [← hy]; exact b3, by rw [← hy]; exact b4, h5, h6⟩
    rw [hx, List.mem_singleton] at hyl
    rw [← hyl, ← hy]

/-- **C69 (cyclic case).** When the first loop ends with `quot = 1` and `q > 33` the group is indeed
cyclic, generated by `P`, as the comment in the code says. -/
theorem C69_cyclic [Finite G] {ord : G → ℤ} (hord : ∀ Q, ord Q = addOrderOf Q) (rnd : ℕ → G) (q : ℤ)
    (hq : 33 < q) (hasse : ((Nat.card G : ℤ) - (q + 1)) ^ 2 ≤ 4 * q) (fuel n : ℕ) (P : G) (ordP : ℤ)
    (hl : isoLoop1 ord rnd (hasseBounds q).1 (hasseBounds q).2 q fuel 1 (rnd 0)
      (addOrderOf (rnd 0)) = some (n, P, ordP))
    (h1 : n2list ordP (hasseBounds q).1 (hasseBounds q).2 q = [1]) : IsBasis P ordP 0 1 := by
  obtain ⟨s1, -, -⟩ := isoLoop1_spec hord rnd _ _ q fuel 1 (rnd 0) _ rfl _ hl
  simp only [] at s1
  have hP : 0 < ordP := by
    have := addOrderOf_pos P
    omega
  obtain ⟨b1, b2⟩ := C67_hasse_bounds q ordP (by omega)
  have hm := ((C69_n2list ordP _ _ q hP).1 1).1 (by rw [h1]; exact List.mem_singleton.2 rfl)
  rw [mul_one] at hm
  have hb := b2.1 ⟨hm.1, hm.2.1⟩
  refine isBasis_cyclic s1 ?_
  obtain ⟨y, hy⟩ : ordP ∣ Nat.card G := by
    rw [← s1]
    exact_mod_cast addOrderOf_dvd_natCard P
  rw [hy] at hasse ⊢
  have hy0 : 0 < y := by
    have hc0 : 0 < (Nat.card G : ℤ) := by exact_mod_cast Nat.card_pos
    rw [hy] at hc0
    nlinarith
  have hy1 : y = 1 := by
    by_contra hne
    have hy2 : 2 ≤ y := by omega
    -- u = q+1-n ≤ 2√q, v = yn-(q+1) ≤ 2√q, 2u+v ≥ q+1
    have k1 : q + 1 ≤ 2 * (q + 1 - ordP) + (ordP * y - (q + 1)) := by nlinarith
    nlinarith [sq_nonneg (2 * (q + 1 - ordP) - 2 * (ordP * y - (q + 1))), sq_nonneg (q + 1 - ordP - 2 * (ordP * y - (q + 1)))]
  rw [hy1, mul_one]

end Eclib.Pmod
